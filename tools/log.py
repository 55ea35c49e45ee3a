#!/usr/bin/env python3
"""Converts the results of mutation runs (results.jsonl) to seeded/LOG.jsonl; `tightened.json` maps a line number to what was tightened."""
import json,os
T={}
if os.path.exists('/root/mut/tightened.json'): T=json.load(open('/root/mut/tightened.json'))
out=open('/verif/seeded/LOG.jsonl','w')
for k,l in enumerate(open('/root/mut/results.jsonl')):
    r=json.loads(l)
    out.write(json.dumps({'definition':r['definition'],'file':r['file'],'edit':r['edit'],'claim_broken':r['claim'],'theorems_failed':r['failed'],'survived':r['survived'],'theorems_tightened':T.get(str(k),[])},ensure_ascii=False)+'\n')
