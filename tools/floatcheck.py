#!/usr/bin/env python3
"""Compares Verif/SoftFloat.lean with this machine's f64 and f32: 40000 random pairs of bit patterns, + - * / sqrt == and
re-encoding.  A test, no proof: evidence that the definitions of Verif/Float.lean (to which SoftFloat is proved equal) are
those of the hardware.  Needs a built project; writes only to a temporary directory."""
import math, os, random, struct, subprocess, tempfile
random.seed(5)
def d2b(x): return struct.unpack('<Q',struct.pack('<d',x))[0]
def b2d(b): return struct.unpack('<d',struct.pack('<Q',b))[0]
def b2f(b): return struct.unpack('<f',struct.pack('<I',b))[0]
def f2b(x):
    try: return struct.unpack('<I',struct.pack('<f',x))[0]
    except OverflowError: return 0x7f800000 if x>0 else 0xff800000
def div(a,b):
    try: return a/b
    except ZeroDivisionError:
        if a==0 or math.isnan(a): return math.nan
        s=math.copysign(1,a)*math.copysign(1,b); return s*math.inf
def sq(a):
    if math.isnan(a) or a<0: return math.nan
    return math.sqrt(a)
def canon64(b): return 0x7ff8000000000000 if (b&0x7fffffffffffffff)>0x7ff0000000000000 else b
def canon32(b): return 0x7fc00000 if (b&0x7fffffff)>0x7f800000 else b
def rnd(w,e):
    k=random.random(); p=w-1-e
    if k<0.05: return random.choice([0,1<<(w-1),((1<<e)-1)<<p,(((1<<e)-1)<<p)|1<<(w-1),((1<<e)-1)<<p|5,1,(1<<p)-1,1<<p,(((1<<e)-1)<<p)-1])
    if k<0.5:
        ex=(1<<(e-1))-1+random.randint(-4,4)
    elif k<0.6: ex=random.randint(0,3)
    elif k<0.7: ex=(1<<e)-1-random.randint(0,3)
    else: ex=random.randrange(1<<e)
    m=random.getrandbits(p)
    if random.random()<0.3: m&=~((1<<random.randint(0,p))-1)
    return random.getrandbits(1)<<(w-1)|ex<<p|m
L=[]
for _ in range(20000):
    a,b=rnd(64,11),rnd(64,11); 
    if random.random()<0.2: b=a^random.choice([0,1,1<<63,3])
    x,y=b2d(a),b2d(b)
    L.append((64,a,b,*[canon64(d2b(z)) for z in (x+y,x-y,x*y,div(x,y),sq(x))],int(x==y)))
    a,b=rnd(32,8),rnd(32,8)
    if random.random()<0.2: b=a^random.choice([0,1,1<<31,3])
    x,y=b2f(a),b2f(b)
    L.append((32,a,b,*[canon32(f2b(z)) for z in (x+y,x-y,x*y,div(x,y),sq(x))],int(x==y)))


SCRIPT = '''import Verif.SoftFloat
open Rowcol
def go (f : FloatFormat) (k : Nat) (l : List Nat) : Bool :=
  let d (i : Nat) : Sf f := f.decode k (BitVec.ofNat _ (l.getD i 0))
  let r (x : Sf f) : Nat := (f.encode k x).toNat
  let a := d 1
  let b := d 2
  let out := [r (a.add b), r (a.add b.neg), r (a.mul b), r (a.div b), r a.sqrt, if a.beq b then 1 else 0]
  out == l.drop 3 && (a == .nan || r a == l.getD 1 0)
def main : IO Unit := do
  let s ← IO.FS.readFile "IN_TXT"
  let mut bad := 0
  let mut n := 0
  for line in s.splitOn "\n" do
    let l := (line.splitOn " ").map (·.toNat!)
    let ok := if l.headD 0 = 64 then go .f64 11 l else go .f32 8 l
    n := n + 1
    if !ok then
      bad := bad + 1
      if bad < 10 then IO.println line
  IO.println s!"{n} lines, {bad} bad"
#eval main
'''
here = os.path.dirname(os.path.abspath(__file__))
with tempfile.TemporaryDirectory() as d:
    inp = os.path.join(d, 'in.txt')
    open(inp, 'w').write('\n'.join(' '.join(map(str, l)) for l in L))
    src = os.path.join(d, 'T.lean')
    open(src, 'w').write(SCRIPT.replace('IN_TXT', inp))
    subprocess.run(['lake', 'env', 'lean', src], cwd=os.path.join(here, '..', 'lean'))
