#!/bin/bash
# usage: tools/commit.sh "message"   (regenerates the lists, builds, commits)
set -o pipefail
cd "$(dirname "$0")/.." && python3 tools/gen_props.py > /dev/null && python3 tools/gen_manifest.py
! grep -rnw "sorry\|native_decide\|bv_decide\|admit" lean/Verif lean/Verif.lean || exit 1
(cd lean && lake build 2>&1 | grep -v "^warning\|^  \|Hint\|Note\|^$\|Replayed" | tail -3) || { echo BUILD FAILED; exit 1; }
git add -A && git commit -qm "$1" && git log --oneline -1
