"""Turns the results of tools/mutate.py into lines of seeded/LOG.jsonl: python3 seedlog.py RESULTS [TIGHTENED]

TIGHTENED is a JSON object from the id of a wrong program to the theorems that were tightened because of it."""
import json, os, sys
HERE = os.path.dirname(os.path.abspath(__file__))
LOG = os.path.join(HERE, "..", "seeded", "LOG.jsonl")
tightened = json.load(open(sys.argv[2])) if len(sys.argv) > 2 else {}
done = [json.loads(l) for l in open(LOG)] if os.path.exists(LOG) else []
seen = {d["id"] for d in done}
new = 0
with open(LOG, "a") as log:
    for line in open(sys.argv[1]):
        r = json.loads(line)
        if r["status"] != "ok" or r["id"] in seen:
            continue
        seen.add(r["id"])
        failed = sorted({b.split("'")[-1] for b in r["broken"]})
        log.write(json.dumps({
            "id": r["id"], "definition": r["definition"], "file": "lean/" + r["file"],
            "edit": {"what": r["edit"], "from": r["old"], "to": r["new"]},
            "claim_broken": r["claim"], "theorems_failed": failed, "proofs_failed": r["direct"],
            "theorems_tightened": tightened.get(r["id"], [])}, ensure_ascii=False) + "\n")
        new += 1
print(new, "new lines,", len(seen), "in all")
