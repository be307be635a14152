"""Rewrites the table of theorems and axioms at the end of DESIGN.md from `#print axioms` (needs a built project)."""
import pathlib, re, subprocess

root = pathlib.Path(__file__).resolve().parent.parent
names = []
for path in sorted((root / "lean" / "Verif" / "Props").rglob("*.lean")):
    names += [(n, path.stem) for n in re.findall(r"^theorem (C\d\d\d?_\w+)", path.read_text(), re.M)]
names.sort(key=lambda p: (int(re.match(r"C(\d+)", p[0]).group(1)), p[1]))
src = "import Verif\nopen Verif.Props\n" + "".join(f"#print axioms {n}\n" for n, _ in names)
out = subprocess.run(["lake", "env", "lean", "--stdin"], cwd=root / "lean", input=src, capture_output=True, text=True, check=True).stdout
axioms = {n: a for n, a in re.findall(r"'Verif\.Props\.(\w+)' depends on axioms: \[([^\]]*)\]", out)}
for n in re.findall(r"'Verif\.Props\.(\w+)' does not depend on any axioms", out):
    axioms[n] = "none"
rows = [f"| `{n}` | {f} | {' '.join(axioms[n].split())} |" for n, f in names]
begin, end = "<!-- axioms -->\n", "<!-- end of axioms -->\n"
doc = (root / "DESIGN.md").read_text()
head, rest = doc.split(begin)
doc = head + begin + "| theorem | Props/ | axioms |\n|---|---|---|\n" + "\n".join(rows) + "\n" + end + rest.split(end)[1]
(root / "DESIGN.md").write_text(doc)
print(len(rows), sorted(set(axioms.values())))
