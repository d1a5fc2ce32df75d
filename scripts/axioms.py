"""Write AXIOMS.md: the axioms of every theorem named in MANIFEST.json (run after `lake build`)."""
import json, os, re, subprocess, sys

root = os.path.dirname(os.path.dirname(os.path.abspath(__file__)))
lean = sys.argv[1] if len(sys.argv) > 1 else os.path.join(root, "lean")
claims = json.load(open(os.path.join(root, "MANIFEST.json")))["claims"]
names = []
for c in claims:
    for t in c["theorems"]:
        if t not in names:
            names.append(t)
src = "import Verif\n" + "".join(f"#print axioms {t}\n" for t in names)
out = subprocess.run(["lake", "env", "lean", "--stdin"], cwd=lean, input=src, capture_output=True, text=True).stdout
out = re.sub(r"\n\s+", " ", out)
axioms = {}
for m in re.finditer(r"'(\S+)' (does not depend on any axioms|depends on axioms: \[([^\]]*)\])", out):
    axioms[m.group(1)] = m.group(3) or "none"
missing = [t for t in names if t not in axioms]
assert not missing, missing
groups = {}
for t in names:
    groups.setdefault(axioms[t], []).append(t)
with open(os.path.join(root, "AXIOMS.md"), "w") as f:
    f.write("# Axioms of the theorems in MANIFEST.json\n\nWritten by `scripts/axioms.py` from `#print axioms`.\n")
    for a in sorted(groups):
        f.write(f"\n## {a}\n\n" + "".join(f"* `{t}`\n" for t in groups[a]))
print({a: len(l) for a, l in groups.items()})
