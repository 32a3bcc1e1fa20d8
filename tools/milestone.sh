#!/bin/sh
# build, refresh the manifest, commit with message $1
cd /verif/lean
if ! lake build > /tmp/build.log 2>&1; then grep -A12 "error" /tmp/build.log | head -60; exit 1; fi
python3 ../tools/manifest.py && python3 ../tools/design.py && cd .. && git add -A && git commit -qm "$1" && vcheck | tail -1
