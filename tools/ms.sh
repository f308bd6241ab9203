#!/bin/bash
# one milestone: regenerate, build, commit, vcheck
set -e
python3 /verif/tools/props.py; /verif/tools/imports.sh; python3 /verif/tools/manifest.py; python3 /verif/tools/design.py
cd /verif/lean; lake build 2>&1 | tail -1
cd /verif; git add -A; git commit -qm "$1"; timeout 2400 vcheck > /tmp/vc.log 2>&1; grep -o '"gate": "[a-z]*"' /tmp/vc.log
