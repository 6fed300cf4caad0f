"""Write AXIOMS.md: the axioms every theorem of MANIFEST.json depends on, as Lean reports them.

Run after `lake build`; it checks a scratch file outside the project with `#print axioms`.
"""
import collections, json, pathlib, re, subprocess, tempfile

root = pathlib.Path(__file__).resolve().parent.parent
claims = json.loads((root / "MANIFEST.json").read_text())["claims"]
names = [t for c in claims for t in c["theorems"]]
with tempfile.NamedTemporaryFile("w", suffix=".lean", delete=False) as fd:
    fd.write("import Verif\n" + "".join(f"#print axioms {n}\n" for n in names))
out = subprocess.run(["lake", "env", "lean", fd.name], cwd=root / "lean", capture_output=True, text=True)
pathlib.Path(fd.name).unlink()
text = re.sub(r"\n\s+", " ", out.stdout)
found = {}
for line in text.splitlines():
    m = re.search(r"'(\S+)' depends on axioms: \[(.*)\]", line)
    if m:
        found[m.group(1)] = tuple(sorted(m.group(2).split(", ")))
    m = re.search(r"'(\S+)' does not depend on any axioms", line)
    if m:
        found[m.group(1)] = ()
missing = [n for n in names if n not in found]
assert not missing, (missing[:5], out.stdout[-2000:], out.stderr[-2000:])
allowed = {"propext", "Classical.choice", "Quot.sound"}
bad = {n: a for n, a in found.items() if not set(a) <= allowed}
assert not bad, bad
groups = collections.defaultdict(list)
for n in names:
    groups[found[n]].append(n)
lines = ["# Axioms", "",
         f"Reported by `#print axioms` for all {len(names)} theorems of `MANIFEST.json`",
         "(regenerate with `python3 tools/axioms.py` after a build). Nothing else occurs.", ""]
for ax in sorted(groups, key=lambda a: (len(a), a)):
    lines += ["## " + (", ".join(f"`{a}`" for a in ax) or "none"), ""]
    lines += [f"* `{n}`" for n in groups[ax]] + [""]
(root / "AXIOMS.md").write_text("\n".join(lines))
print({", ".join(a) or "none": len(v) for a, v in groups.items()})
