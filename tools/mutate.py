#!/usr/bin/env python3
"""Apply wrong-program edits to a scratch copy of the model and record which theorems stop checking.
usage: mutate.py edits.json [source directory]
edits.json: list of {file, old, new, claim, definition, note?, drop?, first?}.  `drop` names lemmas (File.name) whose proofs are left out
in the scratch copy, so that the theorems after them are checked as well; `first`: replace only the first occurrence."""
import json, os, re, shutil, subprocess, sys
SRC = sys.argv[2] if len(sys.argv) > 2 else '/verif/lean'
DST = '/tmp/mut'
def names(path):
    out = []
    for i, l in enumerate(open(path), 1):
        m = re.match(r'\s*(?:@\[[^\]]*\]\s*)?(?:private |protected |noncomputable )*(theorem|lemma|def|example|instance)\s*(\S*)', l)
        if m: out.append((i, m.group(1), m.group(2)))
    return out
def drop(lemma):
    f, n = lemma.split('.', 1)
    p = f'{DST}/Verif/{f}.lean'
    s = open(p).read()
    m = re.search(r'theorem ' + re.escape(n) + r'(?=[\s:({\[])', s)
    e = re.search(r'\n(?=\n|theorem )', s[m.start():])
    blk = s[m.start():m.start() + e.start()] if e else s[m.start():]
    k = re.search(r':= by\b|:=\n|:= ', blk).start()
    open(p, 'w').write(s[:m.start()] + blk[:k] + ':= sorry' + s[m.start() + len(blk):])
def main():
    for e in json.load(open(sys.argv[1])):
        shutil.rmtree(DST, ignore_errors=True)
        subprocess.run(['cp', '-a', SRC, DST], check=True)
        p = f'{DST}/Verif/{e["file"]}.lean'
        s = open(p).read()
        if s.count(e['old']) != 1 and not e.get('first'):
            print('SKIP', e['definition'], 'matches', s.count(e['old'])); continue
        open(p, 'w').write(s.replace(e['old'], e['new'], 1))
        for l in e.get('drop', []): drop(l)
        r = subprocess.run(['lake', 'build'], cwd=DST, capture_output=True, text=True)
        out = r.stdout + r.stderr
        failed = []
        for f, ln in re.findall(r'error: (Verif/\w+\.lean):(\d+):', out):
            cand = [(k, n) for i, k, n in names(f'{DST}/{f}') if i <= int(ln)]
            nm = (cand[-1][1] or 'example') if cand else '?'
            x = f'{f[6:-5]}.{nm}'
            if x not in failed: failed.append(x)
        bad = re.findall(r'^- Verif\.(\w+)', out, re.M)
        # modules that could not be built because they import a failing one
        imp = {}
        for f in os.listdir(DST + '/Verif'):
            if f.endswith('.lean'):
                imp[f[:-5]] = re.findall(r'^import Verif\.(\w+)', open(f'{DST}/Verif/{f}').read(), re.M)
        blocked, todo = set(), list(bad)
        while todo:
            b = todo.pop()
            for m, i in imp.items():
                if b in i and m not in blocked and m not in bad:
                    blocked.add(m); todo.append(m)
        bt = sorted({n.split('_')[0] for m in blocked for _, k, n in names(f'{DST}/Verif/{m}.lean') if re.match(r'C\d\d+_', n)})
        rec = {'definition': e['definition'], 'edit': f"{e['old'].strip()}  =>  {e['new'].strip()}", 'claim': e['claim'],
               'failed': failed, 'blocked': bt, 'survived': r.returncode == 0, 'tightened': e.get('tightened', [])}
        if 'drop' in e: rec['left_out'] = e['drop']
        if 'note' in e: rec['note'] = e['note']
        print(json.dumps(rec, ensure_ascii=False), flush=True)
        open('/tmp/mutlog.jsonl', 'a').write(json.dumps(rec, ensure_ascii=False) + '\n')
main()
