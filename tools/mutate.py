#!/usr/bin/env python3
"""Apply one textual edit to a scratch copy of the model, rebuild, and log which theorems fail.

usage: mutate.py SPEC.json     SPEC = list of {file, definition, old, new, edit, claim, expect}
Appends one line per mutation to seeded/LOG.jsonl.  The scratch copy lives in /tmp/mut.
"""
import json, os, re, signal, subprocess, sys, shutil, time
ROOT = '/verif'
SCR = '/tmp/mut'
BASE = '/tmp/mutbase'   # snapshot taken once, so that /verif/lean may change meanwhile

def sync():
    shutil.rmtree(SCR, ignore_errors=True)
    os.makedirs(SCR)
    subprocess.run(['cp', '-a', BASE + '/lean', SCR + '/lean'], check=True)

def enclosing(path, line):
    name = None
    with open(path) as f:
        for i, l in enumerate(f, 1):
            if i > line: break
            m = re.match(r'\s*(?:private |protected |@\[[^\]]*\] )*(theorem|lemma|def|example|instance)\s*(\S*)', l)
            if m: name = m[2].rstrip(':') if m[1] != 'example' else 'example@%d' % i
    return name

def build(file, limit=1500, grace=45):
    """lake build; once a theorem fails, other modules get `grace` seconds to fail too"""
    log = open('/tmp/mut.log', 'w+')
    r = subprocess.Popen(['lake', 'build'], cwd=SCR + '/lean', stdout=log, stderr=subprocess.STDOUT, start_new_session=True)
    start, first = time.time(), None
    while r.poll() is None:
        time.sleep(1)
        if first is None and re.search(r'^error: Verif/', open('/tmp/mut.log').read(), re.M): first = time.time()
        if (first and time.time() > first + grace) or time.time() > start + limit:
            os.killpg(r.pid, signal.SIGKILL); r.wait()
    txt = open('/tmp/mut.log').read()
    if time.time() > start + limit and first is None: txt = 'error: Verif/%s:1:1: timeout' % file
    return txt

def main():
    specs = json.load(open(sys.argv[1]))
    shutil.rmtree(BASE, ignore_errors=True)
    os.makedirs(BASE)
    subprocess.run(['cp', '-a', ROOT + '/lean', BASE + '/lean'], check=True)
    out = open(ROOT + '/seeded/LOG.jsonl', 'a')
    for s in specs:
        sync()
        p = SCR + '/lean/Verif/' + s['file']
        t = open(p).read()
        if t.count(s['old']) < 1:
            print('NOT FOUND', s['definition'], repr(s['old'])); continue
        t = t.replace(s['old'], s['new'], 1)
        open(p, 'w').write(t)
        txt = build(s['file'])
        failed = []
        for m in re.finditer(r'^error: (Verif/\S+?):(\d+):\d+', txt, re.M):
            n = enclosing(SCR + '/lean/' + m[1], int(m[2]))
            if n and n not in failed: failed.append(n)
        rec = {'definition': s['definition'], 'edit': s['edit'], 'claim': s['claim'],
               'failed_theorems': failed, 'tightened': s.get('tightened', [])}
        print(('KILLED  ' if failed else 'SURVIVED'), s['definition'], '|', s['edit'], '|', failed[:6])
        out.write(json.dumps(rec) + '\n'); out.flush()
main()
