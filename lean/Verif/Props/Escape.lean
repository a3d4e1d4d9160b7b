import Verif.Lemmas.Escape
import Verif.Lemmas.Twin
import Verif.Props.Rules
import Verif.Props.Terminate
import Verif.Props.Grammars
/-
C18 for blocks whose parts are literals: what becomes of every text,
whatever the library looks at and pushes back on the way.
-/
namespace Xbnf.Props
open Spec

variable {env : Env}

theorem lit_text {n : Node} {t : List Rune} (hc : n.chars = t) (hk : n.children = [])
    (hv : Valid t) : n.text = t := by
  cases n
  simp only at hc hk
  subst hc hk
  unfold Node.text
  split
  · rw [if_neg]
    intro h
    exact hv EOFChar (by rw [h]; simp) rfl
  · rename_i h
    have := List.eq_nil_of_length_eq_zero (Nat.le_zero.1 (Nat.not_lt.1 h))
    rw [this]
    simp [textLoop]

/-- A block of literals at the front of the input: it matches exactly if the close comes before an
excluded text that is not escaped, its children are the open, the content and the close, and the
content is what `Within` says: without the escapes of closes and excluded texts.  If neither
the escape nor an excluded text is longer than the close, the input goes on right after the close, or before it if it is virtual. -/
theorem C18_literal_partial {v : Bool} {o c : List Rune} {e : Option (List Rune)} {xs : List (List Rune)}
    {rule : Rule} (hr : LiteralBlock v o c e xs rule) (ht : Texts o c e xs) {flag : Int} {s : Stream}
    (h : Ready s) {ws body : List Rune} (hs : s.rem = ws ++ (o ++ body))
    (hws : ∀ x ∈ ws, isWhiteSpace x = true) (hf : ws = [] ∨ flag = SUGGEST_SKIP) :
    ∃ F res s', (∀ fuel, F ≤ fuel → eval env fuel rule flag s = .ok (res, s')) ∧
      ((∃ n ct r, res.node = some n ∧ Within c e xs body ct r ∧
          n.children.map Node.text = [o, ct] ++ (if v then [] else [c]) ∧
          ((∀ x ∈ e.toList ++ xs, x.length ≤ c.length) →
            (s'.pushBack res.unused).rem = if v then c ++ r else r)) ∨
       (res.node = none ∧ ¬ ∃ ct r, Within c e xs body ct r)) := by
  have hblock : ∃ b ro rc er rs, rule = .block b ro v rc er rs := by
    cases hr with
    | plain => exact ⟨_, _, _, _, _, rfl⟩
    | escape => exact ⟨_, _, _, _, _, rfl⟩
  obtain ⟨b, ro, rc, er, rs, rfl⟩ := hblock
  have hv : Valid (ws ++ (o ++ body)) := hs ▸ h.valid
  obtain ⟨lr, k, i1, i2⟩ := L.evalBlock_lit env body.length (body.length + 1) hr ht (flag := flag) hv hws hf
    (Nat.lt_succ_self _)
  have hle : L.eval env (body.length + 2) (.block b ro v rc er rs) flag s.rem = .ok (lr, k) := by
    rw [hs]; simp only [L.eval]; exact i1
  obtain ⟨res, s', e1, e2, e3⟩ := list_eval h.wf hle
  refine ⟨body.length + 2, res, s', fun fuel hfu => eval_mono hfu e1, ?_⟩
  simp only at e2 e3
  have hun : res.unused = lr.unused := by rw [← e2]; rfl
  rcases i2 with ⟨ct, r, on, cn, j1, j2, j3, j4, j5, j6, j7⟩ | ⟨j1, j2⟩
  · left
    have hn : res.node.map Node.erase = lr.node := by rw [← e2]; rfl
    rw [j6] at hn
    obtain ⟨n, hn1, hn2⟩ := Option.map_eq_some_iff.1 hn
    refine ⟨n, ct, r, hn1, j1, ?_, ?_⟩
    · have hch := children_erase n
      rw [hn2] at hch
      have htx : n.children.map Node.text = (n.children.map Node.erase).map Node.text := by
        rw [List.map_map]
        exact List.map_congr_left (fun x _ => (text_erase x).symm)
      rw [htx, ← hch]
      have t1 : on.text = o := lit_text j2 j3 (ht.chars o (by simp))
      have t2 : cn.text = c := lit_text j4 j5 (ht.chars c (by simp))
      have t3 : Node.text { ruleType := .chars, chars := ct, sticky := true } = ct :=
        lit_text rfl rfl (L.within_valid j1 (fun x hx => hv x (by simp [hx])))
      simp only [branchNode]
      cases v <;> simp [t1, t2, t3]
    · intro hm
      rw [Stream.rem_pushBack, e3.rem, hun, hs]
      exact j7 hm
  · right
    refine ⟨?_, j2⟩
    have hn : res.node.map Node.erase = lr.node := by rw [← e2]; rfl
    rw [j1] at hn
    exact Option.map_eq_none_iff.1 hn

theorem fail_of_head {t l : List Rune} {x : Exec (Res × Nat)} (h : L.LitAt t l x) (ht : t ≠ [])
    (hd : t.head? ≠ l.head?) : ∃ n st, n ≤ l.length ∧ n ≤ 1 ∧
      x = .ok ({ read := l.take n, unused := l.take n, sticky := st }, n) := by
  rcases h with ⟨h, _⟩ | ⟨_, n, st, h1, _, h3, h4⟩
  · exact absurd (L.head_of_prefix h ht) hd
  · exact ⟨n, st, h1, h3 hd, h4⟩

theorem long_escape {f : Nat} {re : Rule} {a x : Rune} {t rest : List Rune} (he : Wording re (a :: t))
    (hn : ∀ b y u, re ≠ .char b y u) (hx : x ≠ a) (hv : Valid (x :: rest)) :
    ∃ st, L.eval env (f + 1) re NOT_SKIP (x :: rest) =
      .ok ({ read := [x], unused := [x], sticky := st }, 1) := by
  have hxe : x ≠ EOFChar := hv x (by simp)
  have key : ∀ (rt : RType) (b : RuleBase) (sticky : Bool),
      L.evalText rt b sticky false (a :: t) (x :: rest) =
        ({ read := [x], unused := [x], sticky := sticky }, 1) := by
    intro rt b sticky
    unfold L.evalText
    rw [if_neg (show ¬ L.peek (x :: rest) = EOFChar from hxe)]
    simp [L.matchText, L.matchK, hxe, hx]
  cases he with
  | char b y u => exact absurd rfl (hn b a u)
  | chars b t' => exact ⟨true, congrArg Exec.ok (key .chars b true)⟩
  | str b t' => exact ⟨false, congrArg Exec.ok (key .string b false)⟩

theorem long_escape_loop {f : Nat} {re rc : Rule} {a x : Rune} {t c rest : List Rune}
    (he : Wording re (a :: t)) (hn : ∀ b y u, re ≠ .char b y u) (hx : x ≠ a) (hc : Wording rc c)
    (hc0 : c ≠ []) (hcv : Valid c) (hcx : c.head? ≠ some x) (hv : Valid (x :: rest)) (fuel : Nat)
    (st : BlockState) : L.blockLoop (L.eval env (f + 1)) rc (some re) [] fuel st (x :: rest) = .oof := by
  induction fuel generalizing st with
  | zero => rfl
  | succ fuel ih =>
    obtain ⟨s1, h1⟩ := long_escape (env := env) (f := f) he hn hx hv
    have hxe : x ≠ EOFChar := hv x (by simp)
    have hv2 : Valid (x :: x :: rest) := by
      intro y hy
      rcases List.mem_cons.1 hy with rfl | hy
      · exact hxe
      · exact hv y hy
    obtain ⟨n, s2, g1, g2, g3⟩ := fail_of_head (L.eval_lit env f hc hc0 hcv (x :: x :: rest) hv2) hc0
      (by simpa using hcx)
    unfold L.blockLoop
    simp only [L.blockEscape, h1, Exec.ok_bind, Option.isSome_none, Bool.false_eq_true, if_false,
      L.blockExclude, List.length_nil, gt_iff_lt, Nat.lt_irrefl, Option.bind_none, L.exclRead,
      List.drop_succ_cons, List.drop_zero, List.cons_append, List.nil_append, g3, List.take_append_drop]
    rw [if_neg (show ¬ L.peek (x :: x :: rest) = EOFChar from hxe)]
    have hone : L.one (x :: x :: rest) = 1 := by simp [L.one]
    simp only [hone, List.drop_succ_cons, List.drop_zero]
    rw [ih]
    rfl

/-- A block with an escape that is not a single character in single quotes, and without excluded
texts, never ends if its content does not begin like the escape or like the close. -/
theorem C18_escape_diverges {v : Bool} {o c t : List Rune} {a x : Rune} {b : RuleBase} {ro rc re : Rule}
    (ho : Wording ro o) (hc : Wording rc c) (he : Wording re (a :: t)) (hn : ∀ b y u, re ≠ .char b y u)
    (ht : Texts o c (some (a :: t)) []) {flag : Int} {s : Stream} (h : Ready s) {ws rest : List Rune}
    (hs : s.rem = ws ++ (o ++ x :: rest)) (hws : ∀ x ∈ ws, isWhiteSpace x = true)
    (hf : ws = [] ∨ flag = SUGGEST_SKIP) (hx : x ≠ a) (hcx : c.head? ≠ some x) (fuel : Nat) :
    eval env fuel (.block b ro v rc (some re) []) flag s = .oof := by
  apply eval_oof_of_list h.wf
  have hv : Valid (ws ++ (o ++ x :: rest)) := hs ▸ h.valid
  rw [hs]
  cases fuel with
  | zero => rfl
  | succ fuel =>
    cases fuel with
    | zero => rfl
    | succ f =>
      obtain ⟨a', t', rfl, ha'⟩ := ht.opens
      obtain ⟨on, st, _, _, o3⟩ := L.eval_lit_open env f (flag := flag) ho ha' hv hws hf
      show L.evalBlock (L.eval env (f + 1)) (f + 1) b ro v rc (some re) [] flag _ = .oof
      unfold L.evalBlock
      rw [o3, Exec.ok_bind]
      simp only [List.nil_append]
      have hcu : Res.countUsed { node := some on, read := ws ++ (a' :: t'), unused := [], sticky := st } =
          ((ws ++ (a' :: t')).length : Int) := by simp [Res.countUsed]
      rw [hcu, sliceTo_all _ _ (Nat.le_refl _), Exec.ok_bind]
      have hdr : (ws ++ (a' :: t' ++ x :: rest)).drop (ws ++ (a' :: t')).length = x :: rest := by
        rw [← List.append_assoc, List.drop_left]
      rw [hdr, long_escape_loop he hn hx hc (ht.nonempty c (by simp)) (ht.chars c (by simp)) hcx
        (fun y hy => hv y (by simp only [List.mem_append]; exact .inr (.inr hy)))]
      rfl

/-! ## Cases -/

def backslash : Rule := .char {} 92 false

/-- The texts of the children of a block that was matched. -/
def parts (x : Exec (Res × Stream)) : Option (Option (List (List Rune))) :=
  match x with
  | .ok (r, _) => some (r.node.map fun n => n.children.map Node.text)
  | _ => none

/-- A comment with an escaped close in it. -/
def comment : Rule := .block {} (lit "/*") false (lit "*/") (some backslash) []

theorem comment_block : LiteralBlock false (runes "/*") (runes "*/") (some [92]) [] comment :=
  .escape (.chars _ _) (.chars _ _) (.char _ _ _) .nil (.inl ⟨_, _, _, rfl⟩)

theorem comment_texts : Texts (runes "/*") (runes "*/") (some [92]) [] :=
  ⟨⟨_, _, rfl, by decide⟩, by decide, by decide, .nil⟩

/-- The escaped close belongs to the content, the escape does not. -/
theorem comment_within : Within (runes "*/") (some [92]) [] (runes "a\\*/b*/ c") (runes "a*/b") (runes " c") :=
  .char (b := 97) (by decide) (by decide) (by decide)
    (.escaped (a := [92]) (l := runes "b*/ c") (ct := runes "b") rfl (by decide)
      (.char (b := 98) (by decide) (by decide) (by decide) (.close (by decide) (by decide))))

/-- Non-vacuity of `C18_literal_partial`, and what it gives. -/
example : ∃ F res s' n, (∀ fuel, F ≤ fuel →
      eval noRules fuel comment SUGGEST_SKIP (Stream.ofChars (runes " /*a\\*/b*/ c")) = .ok (res, s')) ∧
    res.node = some n := by
  obtain ⟨F, res, s', h1, h2⟩ := C18_literal_partial (env := noRules) comment_block comment_texts
    (flag := SUGGEST_SKIP) (ready_ofChars (text := runes " /*a\\*/b*/ c") (valid_runes _)) (ws := runes " ")
    (body := runes "a\\*/b*/ c") (by rw [rem_ofChars]; rfl) (by decide) (.inr rfl)
  rcases h2 with ⟨n, _, _, h3, _⟩ | ⟨_, h3⟩
  · exact ⟨F, res, s', n, h1, h3⟩
  · exact absurd ⟨_, _, comment_within⟩ h3

example : parts (eval noRules 30 comment SUGGEST_SKIP (Stream.ofChars (runes " /*a\\*/b*/ c"))) =
    some (some [runes "/*", runes "a*/b", runes "*/"]) := by decide +kernel

/-- An escape of two characters, a string and an excluded text; the excluded text may come behind the escape. -/
example : parts (eval noRules 40 (.block {} quote false (.str {} (runes "\"\"")) (some (lit "##")) [lit "q", lit "zz"])
      SUGGEST_SKIP (Stream.ofChars (runes "\"x##qy#z##\"\"\"\""))) =
    some (some [runes "\"", runes "xqy#z\"\"", runes "\"\""]) := by decide +kernel
example : LiteralBlock false (runes "\"") (runes "\"\"") (some (runes "##")) [runes "q", runes "zz"]
      (.block {} quote false (.str {} (runes "\"\"")) (some (lit "##")) [lit "q", lit "zz"]) :=
  .escape (.char _ _ _) (.str _ _) (.chars _ _) (.cons (.chars _ _) (.cons (.chars _ _) .nil)) (.inr (by decide))

/-- An excluded text that is not escaped. -/
example : parts (eval noRules 40 (.block {} quote false (.str {} (runes "\"\"")) (some (lit "##")) [lit "q", lit "zz"])
      SUGGEST_SKIP (Stream.ofChars (runes "\"x##qyzz\"\""))) = some none := by decide +kernel

/-- Texts that begin alike are not covered, and go wrong: with the excluded texts `ab` and `abcd`, the
`ce` behind the escaped `ab` is lost. -/
theorem C18_apart_needed :
    parts (eval noRules 40 (.block {} quote false quote (some backslash) [lit "ab", lit "abcd"]) SUGGEST_SKIP
      (Stream.ofChars (runes "\"xy\\abce\""))) = some (some [runes "\"", runes "xyab", runes "\""]) := by
  decide +kernel

/-- An excluded text longer than the close: the place after the block is not right.  With the close
`*` and the excluded text `a*b`, the character behind `*` is lost. -/
theorem C18_longer_counterexample :
    (match eval noRules 40 (.block {} quote false (lit "*") none [lit "a*b"]) SUGGEST_SKIP
        (Stream.ofChars (runes "\"a*cd")) with
      | .ok (r, s') => some (r.node.map (fun n => n.children.map Node.text), (s'.pushBack r.unused).rem)
      | _ => none) = some (some [runes "\"", runes "a", runes "*"], runes "d") := by decide +kernel

/-- The example of a block with an escape in README.md, `<'/*' '\' '*/'>`, is not accepted: the
backslash must be written twice. -/
theorem C18_readme :
    (madeOf (runes "c = <'/*' '\\' '*/'>")).isSome = false ∧
    (madeOf (runes "c = <'/*' '\\\\' '*/'>")).bind (fun g => g.env (runes "c")) =
      some (.block { name := runes "c" } (lit "/*") false (lit "*/") (some backslash) []) := by
  decide +kernel

/-- In double quotes, the escape is no single character: nothing begins like it or like the close, and
the evaluation never ends. -/
example (fuel : Nat) : eval noRules fuel
    (.block {} (lit "/*") false (lit "*/") (some (.str {} (runes "\\"))) []) SUGGEST_SKIP
    (Stream.ofChars (runes "/* x */")) = .oof :=
  C18_escape_diverges (env := noRules) (a := 92) (t := []) (x := 32) (o := runes "/*") (c := runes "*/") (ws := [])
    (rest := runes "x */") (.chars _ _) (.chars _ _) (.str _ _) (by intro _ _ _ h; cases h) comment_texts
    (ready_ofChars (text := runes "/* x */") (valid_runes _)) (by rw [rem_ofChars]; rfl) (by decide) (.inl rfl)
    (by decide) (by decide) fuel

end Xbnf.Props
