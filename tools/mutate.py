#!/usr/bin/env python3
"""Apply seeded bugs to a scratch copy of the model, rebuild, and log what failed.

usage: mutate.py batch.json   (list of {"file","def","old","new","edit","claim","tightened"})
Scratch copy: /root/mut/lean.  Log: /verif/seeded/LOG.jsonl.
"""
import json, os, re, signal, subprocess, sys, threading
SRC = '/root/mut/base'; DST = '/root/mut/lean'; LOG = '/verif/seeded/LOG.jsonl'

def sync():
    os.makedirs('/root/mut', exist_ok=True)
    subprocess.run(f'rm -rf {DST}; cp -a {SRC} {DST}', shell=True, check=True)

def decl_at(path, line):
    name = '?'
    for i, l in enumerate(open(path).read().split('\n')[:line]):
        m = re.match(r'\s*(?:@\[[^\]]*\]\s*)*(?:private |protected |noncomputable )*(?:theorem|def|lemma|instance|example)\b\s*([^\s:({\[]*)', l)
        if m: name = m.group(1) or 'example@%d' % (i + 1)
    return name

def build(cwd):
    """Build; once something failed, let the build go on for a while only."""
    p = subprocess.Popen(['lake', 'build'], cwd=cwd, stdout=subprocess.PIPE, stderr=subprocess.STDOUT, text=True,
                         start_new_session=True)
    timer = None
    out = ''
    for l in p.stdout:
        out += l
        if timer is None and l.startswith('error: Verif/'):
            timer = threading.Timer(40, lambda: os.killpg(p.pid, signal.SIGKILL))
            timer.start()
    p.wait()
    if timer: timer.cancel()
    return out, p.returncode == 0

subprocess.run(f'mkdir -p /root/mut; rm -rf {SRC}; cp -a /verif/lean {SRC}', shell=True, check=True)
for m in json.load(open(sys.argv[1])):
    sync()
    p = f'{DST}/Verif/{m["file"]}'
    s = open(p).read()
    if s.count(m['old']) != 1:
        print('BAD EDIT', m['def'], s.count(m['old'])); continue
    open(p, 'w').write(s.replace(m['old'], m['new']))
    out, ok = build(DST)
    fails = []
    for f, ln in re.findall(r'error: (Verif/\S+\.lean):(\d+):\d+', out):
        d = f.replace('Verif/', '').replace('.lean', '') + ':' + decl_at(f'{DST}/{f}', int(ln))
        if d not in fails: fails.append(d)
    print(m['def'], '|', m['edit'], '| SURVIVED' if ok else '| ' + ', '.join(fails), flush=True)
    if any(f.startswith('Model/') for f in fails) or (not ok and not fails):
        print('BAD EDIT (does not compile)', m['def']); continue
    if not ok or m.get('survives_ok'):
        with open(LOG, 'a') as f:
            e = {k: m[k] for k in ('def', 'edit', 'claim')}
            e = {'definition': m['def'], 'edit': m['edit'], 'claim_broken': m['claim'],
                 'theorems_failed': fails, 'theorems_tightened': m.get('tightened', [])}
            if m.get('note'): e['note'] = m['note']
            f.write(json.dumps(e) + '\n')
