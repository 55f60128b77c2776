"""Write tools/axioms.txt: the axioms of every theorem of MANIFEST.json (run after `lake build`)."""
import json, os, re, subprocess, tempfile
root = os.path.dirname(os.path.dirname(os.path.abspath(__file__)))
names = [t for c in json.load(open(root + "/MANIFEST.json"))["claims"] for t in c["theorems"]]
with tempfile.NamedTemporaryFile("w", suffix=".lean", delete=False) as f:
    f.write("import Verif\n" + "".join("#print axioms %s\n" % n for n in names))
out = subprocess.run(["lake", "env", "lean", f.name], cwd=root + "/lean", capture_output=True, text=True).stdout
os.unlink(f.name)
res = {}
for m in re.finditer(r"'([^']+(?:'[^']*)*?)' (does not depend on any axioms|depends on axioms: \[([^\]]*)\])", out):
    res[m.group(1)] = "-" if m.group(3) is None else " ".join(m.group(3).replace(",", " ").split())
missing = [n for n in names if n not in res]
open(root + "/tools/axioms.txt", "w").write("".join("%s: %s\n" % (n, res.get(n, "?")) for n in names))
print(len(names), "theorems; without result:", missing, "; axioms:", sorted({a for v in res.values() for a in v.split()}))
