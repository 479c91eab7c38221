"""Writes /verif/AXIOMS.md: the axioms on which every theorem listed in MANIFEST.json depends (run after `lake build`)."""
import json, os, re, subprocess, tempfile

claims = json.load(open("/verif/MANIFEST.json"))["claims"]
names = [t for c in claims for t in c["theorems"]]
with tempfile.TemporaryDirectory() as d:
    f = os.path.join(d, "Axioms.lean")
    with open(f, "w") as h:
        h.write("import Verif\n" + "".join(f"#print axioms {n}\n" for n in names))
    out = subprocess.run(["lake", "env", "lean", f], cwd="/verif/lean", capture_output=True, text=True).stdout
out = re.sub(r"\s+", " ", out)
got = {}
for m in re.finditer(r"'([^']+)' (?:depends on axioms: \[([^\]]*)\]|does not depend on any axioms)", out):
    got[m.group(1)] = m.group(2) or "none"
assert set(names) <= set(got), set(names) - set(got)
allowed = {"propext", "Classical.choice", "Quot.sound", "none"}
for n in names:
    assert set(got[n].split(", ")) <= allowed, (n, got[n])
with open("/verif/AXIOMS.md", "w") as h:
    h.write("# Axioms of every theorem in MANIFEST.json\n\nGenerated by `tools/gen_axioms.py` from `#print axioms`.\n\n| theorem | axioms |\n|---|---|\n")
    for n in names:
        h.write(f"| `{n}` | {got[n]} |\n")
print(len(names), {v: sum(got[n] == v for n in names) for v in set(got.values())})
