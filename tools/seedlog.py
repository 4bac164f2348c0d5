#!/usr/bin/env python3
"""Turns the results of mutate.py (/tmp/mut.results.jsonl) into lines of seeded/LOG.jsonl."""
import json, os, sys
src = sys.argv[1] if len(sys.argv) > 1 else "/tmp/mut.results.jsonl"
tight = {}
if len(sys.argv) > 2:
    tight = json.load(open(sys.argv[2]))
log = os.path.join(os.path.dirname(os.path.abspath(__file__)), "..", "seeded", "LOG.jsonl")
done = set()
if os.path.exists(log):
    for l in open(log):
        if l.strip():
            done.add(json.loads(l).get("name"))
with open(log, "a") as out:
    for l in open(src):
        d = json.loads(l)
        if d["name"] in done:
            continue
        done.add(d["name"])
        props = [t.replace("Amt.", "") for t in d["lost"]]
        out.write(json.dumps({
            "name": d["name"], "definition": d["definition"], "edit": d["edit"], "claim": d["claim"],
            "observed": d["bad"], "build": d["build"],
            "failed": d["failed"], "property_theorems_lost": props,
            "tightened": tight.get(d["name"], [])}) + "\n")
