import Verif.Model.Grammar
import Verif.Lemmas.Stream
import Verif.Spec.Erase
/-
The evaluators on the list of characters left.  `L.eval` does what `eval` does, but a stream is just
the list of characters left, positions and error messages are dropped, and the number of characters
consumed is returned instead of the stream.  `Verif/Lemmas/Sim.lean` proves that it is the same.
-/
namespace Xbnf

theorem eraseL_eq_map (ns : List Node) : eraseL ns = ns.map Node.erase := by
  induction ns with
  | nil => rfl
  | cons n ns ih => simp [eraseL, ih]

/-- A result without positions and errors. -/
def Res.core (r : Res) : Res :=
  { node := r.node.map Node.erase, read := r.read, unused := r.unused, sticky := r.sticky }

namespace L

/-- How rules are evaluated on a list: the result, and how many characters were consumed. -/
abbrev Ev := Rule → Int → List Rune → Exec (Res × Nat)

/-- The white space skipped when `skip` holds. -/
def spaces (skip : Bool) (l : List Rune) : List Rune :=
  if skip then l.takeWhile isWhiteSpace else []

def peek (l : List Rune) : Rune := l.headD EOFChar

/-- Number of characters `Next` takes. -/
def one (l : List Rune) : Nat := if l = [] then 0 else 1

/-- `Match`, also for lists that contain EOFChar: what is read, success, what is consumed. -/
def matchK : List Rune → List Rune → List Rune × Bool × Nat
  | [], _ => ([], true, 0)
  | _ :: _, [] => ([], false, 0)
  | want :: rest, c :: l =>
    if c = EOFChar then ([], false, 1)
    else if c ≠ want then ([c], false, 1)
    else
      let m := matchK rest l
      (c :: m.1, m.2.1, m.2.2 + 1)

def evalEOF (b : RuleBase) (flag : Int) (l : List Rune) : Res × Nat :=
  let sk := spaces (decide (flag = SUGGEST_SKIP)) l
  if peek (l.drop sk.length) = EOFChar then
    ({ node := some { ruleType := .eof, name := runes "EOF", chars := [EOFChar], sticky := true,
                      virt := b.virt, nonData := b.nondata, tokenized := b.tokenized },
       read := sk, sticky := true }, sk.length)
  else ({ read := sk, unused := sk, sticky := true }, sk.length)

def evalChar (b : RuleBase) (text : Rune) (flag : Int) (l : List Rune) : Res × Nat :=
  if peek l = EOFChar then ({ sticky := true }, 0)
  else
    let sk := spaces (decide (flag = SUGGEST_SKIP)) l
    let l' := l.drop sk.length
    if flag = SUGGEST_SKIP ∧ isWhiteSpace text = true ∧ sk ≠ [] then
      match sk.findIdx? (fun c => c == text) with
      | some i =>
        ({ node := some (leafNode .char b true [text] none),
           read := sk, unused := sk.drop (i + 1), sticky := true }, sk.length)
      | none => ({ read := sk, unused := sk, sticky := true }, sk.length)
    else if peek l' ≠ text then ({ read := sk, unused := sk, sticky := true }, sk.length)
    else
      ({ node := some (leafNode .char b true [peek l'] none), read := sk ++ [peek l'],
         sticky := true }, sk.length + one l')

def evalRange (b : RuleBase) (first last : Rune) (flag : Int) (l : List Rune) : Res × Nat :=
  if peek l = EOFChar then ({ sticky := true }, 0)
  else
    let sk := spaces (decide (flag = SUGGEST_SKIP)) l
    let l' := l.drop sk.length
    match sk.findIdx? (fun c => decide (first ≤ c) && decide (c ≥ last)) with
    | some i =>
      ({ node := some (leafNode .chars b true [sk.getD i EOFChar] none),
         read := sk, unused := sk.drop (i + 1), sticky := true }, sk.length)
    | none =>
      if first ≤ peek l' ∧ peek l' ≤ last then
        ({ node := some (leafNode .chars b true [peek l'] none), read := sk ++ [peek l'],
           sticky := true }, sk.length + one l')
      else ({ read := sk, unused := sk, sticky := true }, sk.length)

/-- Read characters, success, characters consumed. -/
def matchText (text : List Rune) (skip : Bool) (l : List Rune) : List Rune × Bool × Nat :=
  if skip then
    let leading := leadingWhiteSpace text
    let sk := l.takeWhile isWhiteSpace
    if sk.length < leading.length then (sk, false, sk.length)
    else if sk.drop (sk.length - leading.length) ≠ leading then (sk, false, sk.length)
    else
      let m := matchK (text.drop leading.length) (l.drop sk.length)
      (sk ++ m.1, m.2.1, sk.length + m.2.2)
  else matchK text l

/-- `evalChars` and `evalString`. -/
def evalText (rt : RType) (b : RuleBase) (sticky skip : Bool) (text : List Rune) (l : List Rune) :
    Res × Nat :=
  if peek l = EOFChar then ({ sticky := sticky }, 0)
  else
    let m := matchText text skip l
    if m.2.1 then
      ({ node := some (leafNode rt b sticky text none), read := m.1, sticky := sticky }, m.2.2)
    else ({ read := m.1, unused := m.1, sticky := sticky }, m.2.2)

def concatLoop (ev : Ev) (b : RuleBase) :
    List Rule → SeqState → List Rune → Exec (Res × Nat)
  | [], st, _ =>
    .ok ({ node := some (branchNode .concatenate b st.sticky st.nodes none),
           read := st.read, unused := st.unused, sticky := st.sticky }, 0)
  | r :: rs, st, l => do
    let (res, k) ← ev r st.flag (st.unused ++ l)
    let (read, unused) ← account st.read st.unused res
    let sticky := st.sticky && res.sticky
    match res.node with
    | none => .ok ({ read := read, unused := read, sticky := sticky }, k - st.unused.length)
    | some n => do
      let (out, k2) ← concatLoop ev b rs
        { read := read, unused := unused, sticky := sticky, pos := none,
          flag := nextFlag st.flag n res.sticky, nodes := st.nodes ++ [n] }
        ((st.unused ++ l).drop k)
      .ok (out, k + k2 - st.unused.length)

def repLoop (ev : Ev) (r : Rule) (max : Nat) :
    Nat → SeqState → List Rune → Exec (SeqState × Nat)
  | 0, _, _ => .oof
  | fuel + 1, st, l =>
    if peek (st.unused ++ l) = EOFChar then .ok (st, 0)
    else do
      let (res, k) ← ev r st.flag (st.unused ++ l)
      let (read, unused) ← account st.read st.unused res
      let sticky := st.sticky && res.sticky
      match res.node with
      | none =>
        .ok ({ st with read := read, unused := unused, sticky := sticky }, k - st.unused.length)
      | some n =>
        let st' := { st with read := read, unused := unused, sticky := sticky, pos := none,
                             nodes := st.nodes ++ [n] }
        if max > 0 ∧ st'.nodes.length = max then .ok (st', k - st.unused.length)
        else do
          let (out, k2) ← repLoop ev r max fuel st' ((st.unused ++ l).drop k)
          .ok (out, k + k2 - st.unused.length)

def repFinish (b : RuleBase) (min : Nat) (st : SeqState) : Res :=
  if st.nodes.length < min then { read := st.read, unused := st.read, sticky := st.sticky }
  else
    { node := some (branchNode .repetition b st.sticky st.nodes none), read := st.read,
      unused := st.unused, sticky := st.sticky }

def evalRep (ev : Ev) (fuel : Nat) (b : RuleBase) (r : Rule) (min max : Nat) (flag : Int)
    (l : List Rune) : Exec (Res × Nat) := do
  let (st, k) ← repLoop ev r max fuel { flag := flag } l
  .ok (repFinish b min st, k)

/-- Matches, longest `CharsRead`, stickiness, characters consumed. -/
def choiceGroup (ev : Ev) (flag : Int) :
    List Rule → List Rune → Bool → List Rune → Exec (List Res × List Rune × Bool × Nat)
  | [], read, sticky, _ => .ok ([], read, sticky, 0)
  | r :: rs, read, sticky, l => do
    let (res, k) ← ev r flag (read ++ l)
    let l' := l.drop (k - read.length)
    let read' := if read.length < res.read.length then res.read else read
    let (ms, read'', sticky'', k2) ← choiceGroup ev flag rs read' (sticky && res.sticky) l'
    .ok (if res.node.isSome then res :: ms else ms, read'', sticky'', k - read.length + k2)

def choiceLoop (ev : Ev) (b : RuleBase) (flag : Int) :
    List (List Rule) → List Rune → Bool → List Rune → Exec (Res × Nat)
  | [], read, sticky, _ => .ok ({ read := read, unused := read, sticky := sticky }, 0)
  | g :: gs, read, sticky, l => do
    let (ms, read', sticky', k) ← choiceGroup ev flag g read sticky l
    match pick ms with
    | .none => do
      let (out, k2) ← choiceLoop ev b flag gs read' sticky' (l.drop k)
      .ok (out, k + k2)
    | .ambiguous _ _ => .ok ({ read := read' }, k)
    | .found r => do
      let unused ← sliceFrom read' r.countUsed
      .ok ({ node := r.node.map (fun n => branchNode .choice b sticky' [n] none),
             read := read', unused := unused, sticky := sticky' }, k)

def greedyLoop (ev : Ev) (flag : Int) :
    List Rule → List Rune → List Rune → Exec (List Res × List Rune × Nat)
  | [], maxRead, _ => .ok ([], maxRead, 0)
  | r :: rs, maxRead, l => do
    let (res, k) ← ev r flag (maxRead ++ l)
    let l' := l.drop (k - maxRead.length)
    let maxRead' := if maxRead.length < res.read.length then res.read else maxRead
    let (ms, m, k2) ← greedyLoop ev flag rs maxRead' l'
    .ok (if res.node.isSome then res :: ms else ms, m, k - maxRead.length + k2)

def mostGreedy (ev : Ev) (flag : Int) (rules : List Rule) (l : List Rune) :
    Exec (Res × Nat) := do
  let (ms, maxRead, k) ← greedyLoop ev flag rules [] l
  match pick ms with
  | .none => .ok ({ read := maxRead, unused := maxRead }, k)
  | .ambiguous _ _ => .ok ({}, k)
  | .found r => do
    let unused ← sliceFrom maxRead r.countUsed
    .ok ({ node := r.node, read := maxRead, unused := unused, sticky := r.sticky }, k)

/-- Lines 103-132 of the block loop: escaped, escape characters, used, left over, consumed. -/
def blockEscape (ev : Ev) (escape : Option Rule) (st : BlockState) (l : List Rune) :
    Exec (Bool × List Rune × List Rune × List Rune × Nat) :=
  match escape with
  | none => .ok (false, [], st.used, st.unused, 0)
  | some e => do
    let (res, k) ← ev e NOT_SKIP l
    if res.node.isSome then do
      let c ← res.charsUsed
      .ok (true, c, st.used ++ c, res.unused, k)
    else .ok (false, [], st.used, res.read, k)

/-- Lines 136-153 of the block loop. -/
def blockExclude (ev : Ev) (excludes : List Rule) (l : List Rune) : Exec (Option Res × Nat) :=
  if excludes.length > 0 then do
    let (res, k) ← mostGreedy ev NOT_SKIP excludes l
    .ok (some res, k)
  else .ok (none, 0)

/-- What is pushed back after the excludes were tried. -/
def exclRead : Option Res → List Rune → List Rune
  | some rx, _ => rx.read
  | none, u1 => u1

def blockLoop (ev : Ev) (close : Rule) (escape : Option Rule) (excludes : List Rule) :
    Nat → BlockState → List Rune → Exec (BlockEnd × Nat)
  | 0, _, _ => .oof
  | fuel + 1, st, l => do
    let (escaped, escapeChars, used, u1, k0) ← blockEscape ev escape st l
    let l1 := u1 ++ l.drop k0
    let (rx, k1) ← blockExclude ev excludes l1
    match rx.bind (fun r => r.node.map (fun _ => r)) with
    | some rx => do
      let c ← rx.charsUsed
      if escaped then do
        let (out, k2) ← blockLoop ev close escape excludes fuel
          { used := used ++ c, unused := rx.unused, content := st.content ++ c } (l1.drop k1)
        .ok (out, k0 + (k1 + k2 - u1.length))
      else .ok (.excluded c (used ++ st.content ++ rx.read), k0 + (k1 - u1.length))
    | none => do
      let u2 := exclRead rx u1
      let l2 := u2 ++ l1.drop k1
      let (rc, k2) ← ev close NOT_SKIP l2
      match rc.node with
      | some _ => do
        let c ← rc.charsUsed
        if escaped then do
          let (out, k3) ← blockLoop ev close escape excludes fuel
            { used := used ++ c, unused := rc.unused, content := st.content ++ c } (l2.drop k2)
          .ok (out, k0 + (k1 + (k2 + k3 - u2.length) - u1.length))
        else
          .ok (.closed (used ++ st.content ++ c) rc.unused rc st.content,
               k0 + (k1 + (k2 - u2.length) - u1.length))
      | none => do
        let content := st.content ++ escapeChars
        let l3 := rc.unused ++ l2.drop k2
        if peek l3 = EOFChar then
          .ok (.eof (used ++ content) rc.unused, k0 + (k1 + (k2 - u2.length) - u1.length))
        else do
          let (out, k4) ← blockLoop ev close escape excludes fuel
            { used := used, unused := [], content := content ++ escapeChars ++ [peek l3] }
            (l3.drop (one l3))
          .ok (out, k0 + (k1 + (k2 + (one l3 + k4 - rc.unused.length) - u2.length) - u1.length))

def evalBlock (ev : Ev) (fuel : Nat) (b : RuleBase) (opn : Rule) (virtualClose : Bool)
    (close : Rule) (escape : Option Rule) (excludes : List Rule) (flag : Int) (l : List Rune) :
    Exec (Res × Nat) := do
  let (ro, k) ← ev opn flag l
  match ro.node with
  | none => .ok ({ read := ro.read, unused := ro.unused }, k)
  | some n => do
    let used ← sliceTo ro.read ro.countUsed
    let (e, k2) ← blockLoop ev close escape excludes fuel
      { used := used, unused := ro.unused } (ro.unused ++ l.drop k)
    let k' := k + (k2 - ro.unused.length)
    match e with
    | .excluded _ read => .ok ({ read := read, unused := read }, k')
    | .eof used unused => .ok ({ read := used ++ unused, unused := used ++ unused }, k')
    | .closed used unused rc content =>
      let contentNode : Node := { ruleType := .chars, chars := content, sticky := true }
      .ok ({ node := some (branchNode .block b false
                ([n, contentNode] ++ (if virtualClose then [] else rc.node.toList)) none),
             read := used ++ unused, unused := if virtualClose then rc.read else unused }, k')

/-- `eval` on the list of characters left. -/
def eval (env : Env) : Nat → Rule → Int → List Rune → Exec (Res × Nat)
  | 0, _, _, _ => .oof
  | fuel + 1, rule, flag, l =>
    match rule with
    | .eof b => .ok (evalEOF b flag l)
    | .char b text _ => .ok (evalChar b text flag l)
    | .range b first _ last _ => .ok (evalRange b first last flag l)
    | .chars b text => .ok (evalText .chars b true (decide (flag = SUGGEST_SKIP)) text l)
    | .str b text =>
      .ok (evalText .string b false (decide (flag = SUGGEST_SKIP ∨ flag = SUGGEST_NOT_SKIP)) text l)
    | .group b r => do
      let (res, k) ← eval env fuel r flag l
      .ok (groupRes b res, k)
    | .option b r => do
      let (res, k) ← eval env fuel r flag l
      .ok (optionRes b res, k)
    | .rep b r mn mx => evalRep (eval env fuel) fuel b r mn mx flag l
    | .choice b groups => choiceLoop (eval env fuel) b flag groups [] true l
    | .concat b rules => concatLoop (eval env fuel) b rules { flag := flag } l
    | .block b opn v close escape excludes =>
      evalBlock (eval env fuel) fuel b opn v close escape excludes flag l
    | .ref b name =>
      match env name with
      | none => .ok ({}, 0)
      | some r => do
        let (res, k) ← eval env fuel r flag l
        .ok (refRes b res, k)

end L
end Xbnf
