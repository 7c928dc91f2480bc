"""Writes MANIFEST.json. One c(...) call for each property."""
import json, os
HERE = os.path.dirname(os.path.abspath(__file__))
claims = []


def c(prop, status, theorems, note):
    claims.append({"property": prop, "status": status, "theorems": theorems.split(), "note": note})


exec(open(os.path.join(HERE, "claims.py")).read())
claims.sort(key=lambda x: x["property"])
with open(os.path.join(HERE, "..", "MANIFEST.json"), "w") as f:
    json.dump({"claims": claims}, f, indent=1)
    f.write("\n")
print(len(claims), "claims")
