import sys
p='/verif/tools/gen_manifest.py'
s=open(p).read()
new=sys.stdin.read().strip()
s=s.replace('C.sort(', new+'\nC.sort(',1)
open(p,'w').write(s)
