#!/usr/bin/env python3
# Generates /verif/DESIGN.md from design_head.md, design_methods (below), properties.jsonl, MANIFEST.json and the Lean sources.
import json,re,glob,os
METHODS=[
("C01","C11","arithmetic on `Int` and induction over digit strings"),
("C12","C16","conversion as a recursion over an arbitrary finite price graph with explicit iteration order; termination by a measure on visited currencies, soundness and completeness against a path relation"),
("C17","C19","the real `sort.Find` binary search; invariant over all operation sequences"),
("C20","C25","name-indexed store of accounts with arbitrary iteration orders; invariants, induction on names"),
("C26","C32","induction over transactions, postings and the loop of the checks; conservation lemma"),
("C33","C35","specification of `sort.Search`"),
("C36","C38","induction over account trees"),
("C39","C47","induction over postings; bookkeeping of merged timelines"),
("C48","C50","induction over notes and postings"),
("C51","C52","file system operations with a crash after any of them: invariant over all crash points"),
("C53","C55","writer against the regular-expression based parser: lemmas of the regex engine, round trip by induction"),
("C56","C60","proleptic Gregorian calendar; arithmetic (`omega`)"),
("C61","C65","line parser with explicit regular expressions; characterisation of accepted lines, round trips"),
("C66","C71","induction over imported entries, rules and postings"),
("C72","C74","sums over selected postings; regex lemmas for dates"),
("C75","C78","rule files: parser of sections, regex lemmas, round trip"),
("C79","C81","loading as a recursion over included files; termination by the files not yet open"),
("C82","C83","regex of account patterns against a direct description; layout of written lines"),
("C84","C88","generator with its random numbers as parameters: induction over the dates and rules"),
("C89","C90","tag reducers and the tags command: induction over postings"),
("C91","C94","composition of the importer or the test runner with the parser"),
("C95","C101","csv field templates, derivation graph, composition with the parser"),
("C102","C104","text repair and list commands: induction over lines and names"),
("C105","C109","GnuCash books: decoded XML to ledger, composition with the whole loader"),
("C110","C115","53-bit rounding, price index, breadth first search with its cache: invariants over all reachable caches"),
("C116","C118","encoder and decoder of JSON inverse of each other; composition with the page's loader"),
("C119","C122","list induction over the page's postings; composition with the ledger loader"),
("C123","C136","induction over the account tree, the groups of postings and the columns of a view"),
("C137","C144","induction over the rows printed; decoders of CSV and JSON lines written as specifications and proved inverse of the printers"),
("C145","C149","sums over several commodities against a relational specification; a reader invariant for what the parser can produce"),
("C150","C155","refinement of the earlier models by the same models with the program's shared state, the scanner's limit and the `flag` package"),
("C156","C158","composition: files, loader, resolution, report, text"),
("C159","C165","relational grammar of the written text, proved against the transcribed regular expressions with all their backtracking"),
("C166","C199","induction over the lists of statements, accounts and draws; maps are lists in an arbitrary order, and order-independence is proved or refuted over permutations"),
]
def num(x): return int(x[1:])
def method(i):
    for a,b,m in METHODS:
        if num(a)<=num(i)<=num(b): return a,b,m
where={}
for f in glob.glob('/verif/lean/Verif/**/*.lean',recursive=True):
    for m in re.finditer(r'^theorem ([^ :({\[]+)',open(f).read(),re.M): where['Verif.'+m.group(1)]=os.path.relpath(f,'/verif/lean/Verif')[:-5]
M={c['property']:c for c in json.load(open('/verif/MANIFEST.json'))['claims']}
P=[json.loads(l) for l in open('/verif/properties.jsonl')]
out=open('/verif/tools/design_head.md').read()
out+='## Per property\n\nWhat is modelled is the code named under "code"; theorems are in the modules under "proofs".\n'
cur=None
for p in P:
    c=M[p['id']]; mt=method(p['id'])
    if mt!=cur:
        cur=mt
        ids=[x['id'] for x in P if num(mt[0])<=num(x['id'])<=num(mt[1])]
        out+='\n### %s–%s: %s\n\n| id | property | code | proofs | status |\n|----|----------|------|--------|--------|\n'%(ids[0],ids[-1],mt[2])
    mods=sorted({where[t] for t in c['theorems']})
    missing=[t for t in c['theorems'] if t not in where]
    assert not missing,missing
    code=', '.join('`%s`'%a.split(':')[0] for a in dict.fromkeys(x.split(':')[0] for x in p['anchors']))
    note=c['note'].replace('|','\\|')
    out+='| %s | %s | %s | %s | %s%s |\n'%(p['id'],p['title'],code,', '.join('`%s`'%m for m in mods),c['status'],': '+note if note else '')
open('/verif/DESIGN.md','w').write(out)
