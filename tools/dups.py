#!/usr/bin/env python3
"""Lists top-level names declared twice (namespace-qualified) in the Lean sources."""
import collections, glob, os, re
root = os.path.join(os.path.dirname(os.path.abspath(__file__)), '..', 'lean', 'Verif')
names = collections.defaultdict(list)
for path in glob.glob(root + '/**/*.lean', recursive=True):
    stack = []
    for line in open(path):
        m = re.match(r'namespace (\S+)', line)
        if m:
            stack.append(m.group(1)); continue
        m = re.match(r'end (\S+)', line)
        if m and stack and stack[-1] == m.group(1):
            stack.pop(); continue
        m = re.match(r'(?:@\[[^\]]*\] )?(?:noncomputable )?(?:theorem|def|lemma|structure|inductive|abbrev) ([^\s:({\[]+)', line)
        if m:
            names['.'.join(stack + [m.group(1)])].append(os.path.relpath(path, root))
for n, fs in sorted(names.items()):
    if len(fs) > 1:
        print(n, fs)
