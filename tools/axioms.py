"""Writes the axioms that each claimed theorem depends on into DESIGN.md, between the markers."""
import json, os, re, subprocess
root = os.path.join(os.path.dirname(os.path.abspath(__file__)), "..")
claims = json.load(open(root + "/MANIFEST.json"))["claims"]
names = []
for c in claims:
    for t in c["theorems"]:
        if t not in names:
            names.append(t)
f = "/tmp/axioms_of_claims.lean"
open(f, "w").write("import Verif\n" + "".join(f"#print axioms {n}\n" for n in names))
out = subprocess.run(["lake", "env", "lean", f], cwd=root + "/lean", capture_output=True, text=True).stdout
out = re.sub(r"\n\s+", " ", out)
got = {}
for m in re.finditer(r"'([^']+)' (?:depends on axioms: \[([^\]]*)\]|does not depend on any axioms)", out):
    got[m.group(1)] = m.group(2) or "none"
missing = [n for n in names if n not in got]
if missing:
    raise SystemExit("no answer for " + " ".join(missing))
groups = {}
for c in claims:
    for t in c["theorems"]:
        groups.setdefault(got[t], [])
        if t not in groups[got[t]]:
            groups[got[t]].append(t)
text = ""
for a in sorted(groups, key=lambda a: (a.count(","), a != "none", a)):
    text += f"* {'no axioms' if a == 'none' else a}: " + ", ".join("`" + t.removeprefix("Hiera.") + "`" for t in groups[a]) + "\n"
d = open(root + "/DESIGN.md").read()
begin, end = "<!-- axioms -->\n", "<!-- end of axioms -->\n"
i, j = d.index(begin) + len(begin), d.index(end)
open(root + "/DESIGN.md", "w").write(d[:i] + text + d[j:])
print({a: len(groups[a]) for a in groups})
