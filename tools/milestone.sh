#!/bin/sh
# regenerate the generated files and build everything
set -e
cd /verif
python3 tools/gen_properties.py; python3 tools/gen_manifest.py; python3 tools/mk_design_notes.py; python3 tools/gen_design.py
cd lean && lake build 2>&1 | grep -v "^ℹ\|^✔" | tail -${1:-15}
