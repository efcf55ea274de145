#!/bin/bash
# build, regenerate the manifest, commit and run the gate
cd /verif/lean && lake build 2>&1 | grep -A15 "error" | head -40
cd /verif/lean && lake build >/dev/null 2>&1 || { echo BUILD FAILED; exit 1; }
cd /verif && python3 tools/manifest.py && git add -A && git commit -qm "$1" && vcheck 2>&1 | tail -1 | cut -c1-600
