#!/usr/bin/env python3
"""Append the results of a mutation run to seeded/LOG.jsonl: logmut.py out.jsonl [tightened.json]
tightened.json maps mutant numbers to the theorems tightened because of them."""
import json, os, sys
here = os.path.dirname(os.path.abspath(__file__))
tight = json.load(open(sys.argv[2])) if len(sys.argv) > 2 else {}
with open(os.path.join(here, "..", "seeded", "LOG.jsonl"), "a") as log:
    for line in open(sys.argv[1]):
        o = json.loads(line)
        log.write(json.dumps({
            "definition": o["definition"], "edit": o["edit"], "claim": o["claim"],
            "outcome": "survived" if o["survived"] else "caught",
            "first_failure": o["failed"], "theorems_failed": o["blocked"],
            "theorems_tightened": tight.get(str(o["mutant"]), [])}) + "\n")
