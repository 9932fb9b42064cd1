#!/bin/sh
# duplicate top-level names in namespace Verif.Props
cd /verif/lean/Verif/Props && grep -hoE "^(noncomputable )?(theorem|def|structure|abbrev|inductive|lemma) [A-Za-z0-9_'.]+" *.lean | awk '{print $NF}' | sort | uniq -d
