#!/bin/bash
# Milestone: regenerate the generated files and build.
set -e -o pipefail
cd "$(dirname "$0")/.."
python3 - <<'P'
s=open('DESIGN.md').read()
i=s.index('| id | modelled')
open('DESIGN.md','w').write(s[:i]+open('tools/design_tail.md').read())
P
python3 tools/props.py
(cd lean && lake build 2>&1 | tail -3)
bash tools/axioms.sh
