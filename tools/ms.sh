#!/bin/sh
# build, commit and check a milestone: tools/ms.sh "message"
cd /verif && python3 tools/manifest.py | tail -1 && cd lean && lake build > /tmp/ms.log 2>&1 || { grep -v "^✔" /tmp/ms.log | head -40; exit 1; }
cd /verif && python3 tools/axioms.py && git add -A && git commit -qm "$1" && vcheck
