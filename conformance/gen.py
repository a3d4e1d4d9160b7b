import re,json
src=open('/repo/xbnf_test.go').read()
funcs=re.split(r'\nfunc (?=Test)',src)[1:]
def strip_comments(s): return s
tok=r'(?:`[^`]*`|"(?:\\.|[^"\\])*")'
def unq(t):
    if t[0]=='`': return t[1:-1]
    return json.loads(t)
def lean(s):
    out='"'
    for c in s:
        if c=='"': out+='\\"'
        elif c=='\\': out+='\\\\'
        elif c=='\n': out+='\\n'
        elif c=='\t': out+='\\t'
        else: out+=c
    return out+'"'
o=['import Verif','open Xbnf','set_option maxRecDepth 100000','''
def unr (l : List Rune) : String := String.ofList (l.map (fun c => Char.ofNat c.toNat))
def F := 3000
def gram (s : String) : Grammar := match Grammar.fromString F (runes s) with | .ok g _ => g | _ => {}
def isOk (s : String) : Bool := match Grammar.fromString F (runes s) with | .ok _ _ => true | _ => false
def report (nm : String) (ok : Bool) (extra : String := "") : IO Unit := if ok then IO.println s!"pass {nm}" else IO.println s!"FAIL {nm} {extra}"
def evR (g : Grammar) (nm : String) (s : String) : Option Res := match g.evalRule F (runes nm) (runes s) with | .ok r => some r | _ => none
def tEval (id : String) (g : Grammar) (nm s ex : String) : IO Unit :=
  match evR g nm s with
  | none => report id false "diverge"
  | some r => match r.node with | none => report id (ex == "") "nil" | some n => report id (unr n.text == ex) (unr n.text)
def tRule (id : String) (g : Grammar) (nm s ex : String) : IO Unit :=
  match evR g nm s with
  | none => report id false "diverge"
  | some r => match r.node with | none => report id (ex == "") "nil" | some n => let n := n.mergeSticky.removeVirtual.removeRedundant; report id (unr n.text == ex) (unr n.text)
def tTok (id : String) (g : Grammar) (nm s ex : String) : IO Unit :=
  match evR g nm s with
  | none => report id false "diverge"
  | some r => match r.node with | none => report id (ex == "") "nil" | some n => let n := n.removeVirtual.removeNonData.mergeSticky.removeRedundant; report id (unr n.text == ex) (unr n.text)
def tVirt (id : String) (g : Grammar) (nm s : String) (k : Nat) : IO Unit :=
  match evR g nm s with
  | none => report id false "diverge"
  | some r => match r.node with | none => report id false "nil" | some n => report id (n.removeVirtual.countNodes == k)
def tNon (id : String) (g : Grammar) (nm s : String) (k : Nat) : IO Unit :=
  match evR g nm s with
  | none => report id false "diverge"
  | some r => match r.node with | none => report id false "nil" | some n => report id (n.mergeSticky.removeVirtual.removeRedundant.countTokens == k)
def sch : Grammar.Sched := ⟨fun _ l => l, fun _ l => l⟩
def tMerge (id : String) (g : Grammar) (s : String) (k : Nat) : IO Unit :=
  match g.evalAST F sch (Stream.ofChars (runes s)) 0 with
  | .ok (.ok ns, _) => report id (countStickyL (mergeStickyNodes ns) == k) s!"{countStickyL (mergeStickyNodes ns)}"
  | .ok (.error _, _) => report (id ++ " (err)") (k == 0)
  | _ => report id false "diverge"
def tEmb (id : String) (g : Grammar) (nm s : String) (k : Nat) : IO Unit :=
  match g.evalEmbed F (runes nm) (runes s) with
  | .ok r => match r.node with | none => report id false "nil" | some n => let n := n.mergeSticky.removeVirtual.removeRedundant; report id (n.children.length == k) s!"{n.children.length}"
  | _ => report id false "diverge"
def tParse (id : String) (s ex : String) : IO Unit :=
  match parse F [] [EOFChar] {rest := runes s} with
  | .ok r _ => report id (unr r.print == ex) (unr r.print)
  | .err _ _ => report id (ex == "") "err"
  | .oof => report id false "oof"
''']
gi=0
for f in funcs:
    name=f.split('(')[0]
    i=f.find('NewGrammarFromString(`')
    body=f
    if i>=0:
        j=f.find('`)',i)
        g=f[i+len('NewGrammarFromString(`'):j]
        gi+=1
        o.append(f'def g{gi} := gram {lean(g)}\n#eval report "{name} grammar" (isOk {lean(g)})')
        body=f[j:]
    n=0
    for m in re.finditer(r'(evalRule)\(t, ExpectedText\(('+tok+r')\), grammar, ('+tok+r'), ('+tok+r')\)',body):
        n+=1; o.append(f'#eval tEval "{name} {n}" g{gi} {lean(unq(m[3]))} {lean(unq(m[4]))} {lean(unq(m[2]))}')
    for m in re.finditer(r'\b(testRule)\(t, \w+, ('+tok+r'), ('+tok+r'), ('+tok+r')\)',body):
        n+=1; o.append(f'#eval tRule "{name} {n}" g{gi} {lean(unq(m[2]))} {lean(unq(m[3]))} {lean(unq(m[4]))}')
    for m in re.finditer(r'\btester\(t, grammar, ('+tok+r'), ('+tok+r'),\s*(\d+|'+tok+r')\)',body):
        n+=1
        if name=='TestTokenized': o.append(f'#eval tTok "{name} {n}" g{gi} {lean(unq(m[1]))} {lean(unq(m[2]))} {lean(unq(m[3]))}')
        elif name=='TestVirtual': o.append(f'#eval tVirt "{name} {n}" g{gi} {lean(unq(m[1]))} {lean(unq(m[2]))} {m[3]}')
        elif name=='TestNondata': o.append(f'#eval tNon "{name} {n}" g{gi} {lean(unq(m[1]))} {lean(unq(m[2]))} {m[3]}')
        elif name=='TestEmbed': o.append(f'#eval tEmb "{name} {n}" g{gi} {lean(unq(m[1]))} {lean(unq(m[2]))} {m[3]}')
    if name=='TestGrammarParseRule':
        for m in re.finditer(r'\btester\(t, grammar, ('+tok+r'),\s*('+tok+r'),\s*('+tok+r')\)',body):
            n+=1; o.append(f'#eval tParse "{name} {n}" {lean(unq(m[2]).strip())} {lean(unq(m[3]))}')
    if name=='TestMergeStickyNodes':
        for m in re.finditer(r'\btester\(t, grammar, ('+tok+r'), (\d+)\)',body):
            n+=1; o.append(f'#eval tMerge "{name} {n}" g{gi} {lean(unq(m[1]))} {m[2]}')
    if name=='TestGrammarparse':
        for m in re.finditer(r'\btester\(grammar, ('+tok+r'),\s*('+tok+r')\)',body):
            n+=1; o.append(f'#eval tParse "{name} {n}" {lean(unq(m[1]))} {lean(unq(m[2]))}')
open('/tmp/conf/T.lean','w').write('\n'.join(o))
