#!/bin/sh
# Compares the design files of the model (as text) with the files shipped in /repo, byte by byte.
set -e
T=$(mktemp -d)
cat > $T/chk.lean <<EOF
import Verif.Props.LdpcFiles
open Verif
def dump (p : System.FilePath) (t : List Char) : IO Unit := IO.FS.writeFile p (String.ofList t)
#eval dump "$T/96.33.964.txt" gallager964Text
#eval dump "$T/96.3.963.txt" gallager963Text
#eval match writeLdpc 960 (rowsNat 960 wimax960Checks) with | .ok t => dump "$T/960.720.a.txt" t | .error _ => pure ()
#eval match writeLdpc 1440 (rowsNat 1440 wimax1440Checks) with | .ok t => dump "$T/1440.720.txt" t | .error _ => pure ()
EOF
cd /verif/lean && lake env lean $T/chk.lean
D=/repo/commpy/channelcoding/designs/ldpc
cmp $T/96.33.964.txt $D/gallager/96.33.964.txt
cmp $T/96.3.963.txt $D/gallager/96.3.963.txt
cmp $T/960.720.a.txt $D/wimax/960.720.a.txt
cmp $T/1440.720.txt $D/wimax/1440.720.txt
echo identical
