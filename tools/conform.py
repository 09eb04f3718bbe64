#!/usr/bin/env python3
"""Compares runs of the model with the results kept in the repository.

usage: conform.py first last [minutes]     (lengths, time limit for each)

The model of driver.sh (lean/Verif/Test/Conform.lean) is run on Williamson-type sequences with the machine's
double-precision numbers, and result.log and the result files are compared with /repo/wts-results. Times are replaced by a
star; the directories of a log are compared in any order, as are the sequences of a file (hash sets and directory listings
have no fixed order). The canonical labelling is not computed, so the model keeps one matrix, which must be one of result.mat.
"""
import re, subprocess, sys

T = re.compile(r'\d+\.\d\d seconds')


def log(text):
    # warnings about small gaps are measured values
    text = re.sub(r'WARNING .*\n', '', T.sub('* seconds', text))
    return text


def blocks(text):
    """The log with the order of the directories removed."""
    out, cur = [], []
    for l in text.split('\n'):
        if l.startswith(('Matching files', 'Generating .pair files for rowsums', 'Sorting file', 'Matching took', 'Generated')):
            out.append('\n'.join(cur)); cur = []
        cur.append(l)
    out.append('\n'.join(cur))
    return sorted(out)


def skip_hm(text):
    return re.sub(r'Number of matrices up to equivalence : \d+|\d+ matrices were found', '*', text)


bad = 0
for n in range(int(sys.argv[1]), int(sys.argv[2]) + 1):
    limit = 60 * float(sys.argv[3]) if len(sys.argv) > 3 else 600
    try:
        p = subprocess.run(['lake', 'env', 'lean', '--run', 'Verif/Test/Conform.lean', 'wts', str(n)], cwd='/verif/lean',
                           capture_output=True, text=True, timeout=limit)
    except subprocess.TimeoutExpired:
        print(n, 'time limit'); continue
    parts = dict(re.findall(r'^==(\S+)\n(.*?)(?=^==|\Z)', p.stdout, re.S | re.M))
    res = []
    for name in ['result.log', 'result.seq', 'result-qts.seq', 'result.qseq', 'result-qts.qseq', 'result.qhm', 'result.mat']:
        try:
            want = open(f'/repo/wts-results/find_{n}/{name}').read()
        except FileNotFoundError:
            res.append(f'{name}: no file'); continue
        got = parts.get(name, '')
        if name == 'result.log':
            ok = blocks(skip_hm(log(got))) == blocks(skip_hm(log(want)))
        elif name == 'result.mat':
            ok = set(got.split('\n')) <= set(want.split('\n')) and len(got) > 0
        elif name == 'result.qhm':
            ok = sorted(got.split('\n\n')) == sorted(want.split('\n\n'))
        elif name.endswith('qseq'):
            ok = sorted(got.split(']\n[')) == sorted(want.split(']\n[')) or sorted(got.split('\n')) == sorted(want.split('\n'))
        else:
            ok = sorted(got.split('\n')) == sorted(want.split('\n'))
        res.append(f'{name}: ' + (('same text' if got == want else 'same') if ok else 'DIFFERENT'))
        bad += not ok
        if not ok:
            open(f'/tmp/conform_{n}_{name}', 'w').write(got)
    print(n, '; '.join(res), flush=True)
sys.exit(bad)
