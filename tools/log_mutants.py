#!/usr/bin/env python3
"""Appends the results of mutate.py (<batch>.out.jsonl) to seeded/LOG.jsonl. Usage: log_mutants.py batch.json.out.jsonl [tightened.json]"""
import json, sys
t = json.load(open(sys.argv[2])) if len(sys.argv) > 2 else {}
with open("/verif/seeded/LOG.jsonl", "a") as o:
    for l in open(sys.argv[1]):
        m = json.loads(l)
        d = m["edit"].split(":")[0]
        o.write(json.dumps({"id": m["id"], "definition": m["file"] + " " + d, "edit": m["edit"], "diff": [m["old"], m["new"]],
            "claim": m["claim"], "theorems_failed": m["failed"], "survived": m["rc"] == 0, "theorems_tightened": t.get(m["id"], [])}) + "\n")
