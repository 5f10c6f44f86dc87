#!/usr/bin/env python3
"""Converts /tmp/mut/results*.jsonl lines into seeded/LOG.jsonl entries; usage: seedlog.py results.jsonl tightened.json"""
import json,sys
tight=json.load(open(sys.argv[2])) if len(sys.argv)>2 else {}
out=open('/verif/seeded/LOG.jsonl','a')
for l in open(sys.argv[1]):
    b=json.loads(l)
    key=b['definition']+': '+b['edit']
    out.write(json.dumps({'definition':b['definition'],'file':b['file'],'edit':b['edit'],'old':b['old'],'new':b['new'],'claim':b['claim'],'theorems_failed':b['failed'],'theorems_tightened':tight.get(key,[])})+'\n')
