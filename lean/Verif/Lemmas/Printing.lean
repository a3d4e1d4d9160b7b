import Verif.Model.Print
import Verif.Spec.Printing
import Verif.Spec.Syntax
import Verif.Lemmas.Syntax
/-
A faithfully printed rule is written in the notation.
-/
namespace Xbnf.Props
open Spec

theorem r_quote : runes "'" = [39] := by decide
theorem r_dquote : runes "\"" = [34] := by decide
theorem r_u : runes "\\u" = [92, 117] := by decide
theorem r_bsl : runes "'\\\\'" = [39, 92, 92, 39] := by decide
theorem r_qq : runes "'\\''" = [39, 92, 39, 39] := by decide
theorem r_dash : runes "-" = [45] := by decide
theorem r_sp : runes " " = [32] := by decide
theorem r_lp : runes "( " = [40, 32] := by decide
theorem r_rp : runes " )" = [32, 41] := by decide
theorem r_lb : runes "[ " = [91, 32] := by decide
theorem r_rb : runes " ]" = [32, 93] := by decide
theorem r_lc : runes "{ " = [123, 32] := by decide
theorem r_rc : runes " }" = [32, 125] := by decide
theorem r_lt : runes "<" = [60] := by decide
theorem r_gt : runes ">" = [62] := by decide
theorem r_comma : runes "," = [44] := by decide
theorem r_c0 : runes ",0>" = [44, 48, 62] := by decide
theorem r_plus : runes "+" = [43] := by decide
theorem r_bar : runes " | " = [32, 124, 32] := by decide
theorem r_or : runes " > " = [32, 62, 32] := by decide
theorem r_hat : runes " ^" = [32, 94] := by decide
theorem r_bang : runes " !" = [32, 33] := by decide
theorem r_eof : runes "EOF" = [69, 79, 70] := by decide

/-- What follows a printed part: nothing, a space or '>'. -/
def Follows (out : List Rune) : Prop := ∀ c, out.head? = some c → c = 32 ∨ c = 62

theorem follows_ne {out : List Rune} (h : Follows out) (c : Rune) (h1 : c ≠ 32) (h2 : c ≠ 62) : out.head? ≠ some c := by
  intro e
  rcases h c e with h | h
  · exact h1 h
  · exact h2 h

theorem follows_space (t : List Rune) : Follows (32 :: t) := by
  intro c h; cases h; exact .inl rfl

theorem follows_close (t : List Rune) : Follows (62 :: t) := by
  intro c h; cases h; exact .inr rfl

theorem follows_nil : Follows [] := by
  intro c h; cases h

/-- The first character of a printed part. -/
def Start (c : Rune) : Prop := isWhiteSpace c = false ∧ c ≠ 124 ∧ c ≠ 62 ∧ c ≠ 94 ∧ c ≠ 32

theorem start_const {c : Rune} (h : (!isWhiteSpace c && c != 124 && c != 62 && c != 94 && c != 32) = true) : Start c := by
  simp only [Bool.and_eq_true, Bool.not_eq_true', bne_iff_ne] at h
  exact ⟨h.1.1.1.1, h.1.1.1.2, h.1.1.2, h.1.2, h.2⟩

theorem letter_start {c : Rune} (h : Letter c ∨ c = 95) : Start c := by
  have hr : 65 ≤ c ∧ c ≤ 122 ∧ c ≠ 94 := by
    unfold Letter at h
    unfold Rune at *
    omega
  refine ⟨?_, ?_, ?_, hr.2.2, ?_⟩
  · cases hw : isWhiteSpace c with
    | false => rfl
    | true =>
      unfold isWhiteSpace at hw
      rw [List.contains_iff_mem] at hw
      have : ∀ d ∈ whiteSpaceTable, d < 65 ∨ 122 < d := by decide
      have := this c hw
      unfold Rune at *
      omega
  all_goals (unfold Rune at *; omega)

/-! ## Annotations -/

theorem flagged_annotation {ws : Rune → Prop} {b b' : RuleBase} {inp out : List Rune} (h : Flagged ws inp b' out) (hh : inp.head? ≠ some 124) :
    Flagged ws (annotation b ++ inp) { b' with tokenized := b.tokenized || b'.tokenized, virt := b.virt || b'.virt, nondata := b.nondata || b'.nondata } out := by
  obtain ⟨n, v, d, t⟩ := b
  obtain ⟨n', v', d', t'⟩ := b'
  cases v <;> cases d <;> cases t
  · exact h
  · exact .token h hh
  · exact .nondata h hh
  · exact .token (.nondata h hh) (by intro e; cases e)
  · exact .virt h hh
  · exact .token (.virt h hh) (by intro e; cases e)
  · exact .virt (.nondata h hh) (by intro e; cases e)
  · exact .token (.virt (.nondata h hh) (by intro e; cases e)) (by intro e; cases e)

theorem flagged_base {ws : Rune → Prop} {b : RuleBase} (hb : b.name = []) {inp : List Rune} (hh : inp.head? ≠ some 124) :
    Flagged ws (annotation b ++ inp) b inp := by
  have := flagged_annotation (ws := ws) (b := b) (b' := {}) (inp := inp) .none hh
  obtain ⟨n, v, d, t⟩ := b
  simp only at hb
  subst hb
  simpa using this

theorem annotation_start {b : RuleBase} {inp : List Rune} (h : ∃ c t, inp = c :: t ∧ Start c) : ∃ c t, annotation b ++ inp = c :: t ∧ Start c := by
  obtain ⟨n, v, d, t⟩ := b
  cases v <;> cases d <;> cases t
  · exact h
  all_goals exact ⟨_, _, rfl, start_const (by decide)⟩

/-! ## Numbers -/

theorem hexDigit_ok {k : Nat} (h : k < 16) : HexDigit (hexDigit k) (k : Int) := by
  unfold hexDigit
  split
  · rename_i hk
    left
    refine ⟨by omega, by omega, rfl⟩
  · right
    refine ⟨by omega, by omega, .inr rfl⟩

theorem hex4_ok {c : Rune} (h : Code c) : Hex4 (hex4 c.toNat) c := by
  unfold Code at h
  refine ⟨_, _, _, _, _, _, _, _, rfl, hexDigit_ok (Nat.mod_lt _ (by decide)), hexDigit_ok (Nat.mod_lt _ (by decide)),
    hexDigit_ok (Nat.mod_lt _ (by decide)), hexDigit_ok (Nat.mod_lt _ (by decide)), ?_⟩
  unfold Rune at *
  omega

theorem decDigits_ok : ∀ (fuel n : Nat), n < 10 ^ fuel → Number (decDigits fuel n) n ∧ (0 < fuel → ∃ d t, decDigits fuel n = d :: t ∧ 48 ≤ d ∧ d ≤ 57)
  | 0, n, h => by
    have : n = 0 := by simpa using h
    subst this
    exact ⟨.nil, fun h => absurd h (by decide)⟩
  | fuel + 1, n, h => by
    unfold decDigits
    split
    · rename_i hn
      refine ⟨?_, fun _ => ⟨_, _, rfl, ?_⟩⟩
      · have := Number.digit (k := n) Number.nil hn
        simpa using this
      · unfold Rune
        omega
    · rename_i hn
      have hlt : n / 10 < 10 ^ fuel := by
        rw [Nat.pow_succ] at h
        omega
      obtain ⟨h1, h2⟩ := decDigits_ok fuel (n / 10) hlt
      have hf : 0 < fuel := by
        cases fuel with
        | zero => simp at hlt; omega
        | succ f => omega
      obtain ⟨d, t, e, hd⟩ := h2 hf
      refine ⟨?_, fun _ => ⟨d, t ++ [48 + ((n % 10 : Nat) : Int)], by rw [e]; rfl, hd⟩⟩
      have := Number.digit (k := n % 10) h1 (Nat.mod_lt _ (by decide))
      have he : 10 * (n / 10) + n % 10 = n := by omega
      rw [he] at this
      exact this

theorem dec_ok {n : Nat} (h : n < 2 ^ 32) : Number (dec n) n :=
  (decDigits_ok 10 n (by omega)).1

theorem bounds_ok {mn mx : Nat} (h1 : mn < 2 ^ 32) (h2 : mx < 2 ^ 32) (hle : mx = 0 ∨ mn < mx) {out : List Rune} (ho : Follows out) :
    Bounds (printSpec mn mx ++ out) mn mx out := by
  unfold printSpec
  by_cases he : mn = mx
  · have h0 : mx = 0 := by omega
    subst h0
    subst he
    rw [if_pos rfl, if_neg (by simp)]
    exact .none (follows_ne ho 42 (by decide) (by decide)) (follows_ne ho 43 (by decide) (by decide)) (follows_ne ho 60 (by decide) (by decide))
  · rw [if_neg he]
    by_cases hx : mx = 0
    · subst hx
      rw [if_pos rfl]
      by_cases hm : mn = 1
      · subst hm
        rw [if_pos rfl, r_plus]
        exact .plus
      · rw [if_neg hm, r_lt, r_c0]
        have := Bounds.minMax (inp := dec mn ++ 44 :: [48] ++ 62 :: out) (blank_refl _) (dec_ok h1) h1 (Number.digit (k := 0) Number.nil (by decide)) (by decide) (.inl rfl)
        simpa using this
    · rw [if_neg hx, r_lt, r_comma, r_gt]
      have := Bounds.minMax (inp := dec mn ++ 44 :: dec mx ++ 62 :: out) (blank_refl _) (dec_ok h1) h1 (dec_ok h2) h2 (.inr (by omega))
      simpa using this

/-! ## Literals -/

theorem scalar_via {c : Rune} (h : Scalar c) : viaUTF8 c = c := by
  unfold viaUTF8
  exact if_pos h

theorem scalar_ne {c : Rune} (h : Scalar c) : c ≠ EOFChar := by
  unfold Scalar at h
  unfold EOFChar
  unfold Rune at *
  omega

theorem map_via {t : List Rune} (h : ∀ c ∈ t, Scalar c) : t.map viaUTF8 = t := by
  have := List.map_congr_left (f := viaUTF8) (g := id) (fun c hc => scalar_via (h c hc))
  rw [this, List.map_id]

theorem escapeQuote_ok : ∀ t : List Rune, (∀ c ∈ t, Scalar c ∧ c ≠ 92) → Spelling 39 (escapeQuote t) t false
  | [], _ => .nil
  | c :: t, h => by
    have ht := escapeQuote_ok t (fun d hd => h d (List.mem_cons_of_mem _ hd))
    obtain ⟨h1, h2⟩ := h c List.mem_cons_self
    unfold escapeQuote
    split
    · rename_i hc
      rw [hc]
      exact .escape ht (by decide)
    · rename_i hc
      exact .plain ht hc h2 (scalar_ne h1)

theorem string_ok : ∀ t : List Rune, (∀ c ∈ t, Scalar c ∧ c ≠ 92 ∧ c ≠ 34) → Spelling 34 t t false
  | [], _ => .nil
  | c :: t, h => by
    have ht := string_ok t (fun d hd => h d (List.mem_cons_of_mem _ hd))
    obtain ⟨h1, h2, h3⟩ := h c List.mem_cons_self
    exact .plain ht h3 h2 (scalar_ne h1)

/-- The first character of a range, as it is printed. -/
theorem first_ok {b : RuleBase} {x : Rune} (hx : Scalar x ∧ x ≠ 92) : ∃ src, printEnd b x false = 39 :: src ++ [39] ∧ Spelling 39 src [x] false := by
  unfold printEnd
  rw [if_neg (by decide)]
  by_cases hq : x = ch '\''
  · rw [if_pos hq, r_qq, hq]
    exact ⟨[92, 39], rfl, .escape .nil (by decide)⟩
  · rw [if_neg hq, r_quote, scalar_via hx.1]
    exact ⟨[x], rfl, .plain .nil hq hx.2 (scalar_ne hx.1)⟩

theorem last_ok {b : RuleBase} {y : Rune} (hy : Scalar y) (h1 : y ≠ 92) (h2 : y ≠ 39) : RangeEnd (printEnd b y false) y false := by
  unfold printEnd
  rw [if_neg (by decide), if_neg (show ¬ y = ch '\'' from h2), r_quote, scalar_via hy]
  exact .quoted h1

theorem lastCode_ok {y : Rune} (hy : Code y) : RangeEnd (printEnd {} y true) y true := by
  unfold printEnd
  rw [if_pos rfl, r_u]
  exact .code (hex4_ok hy)

/-- A printed range, after its first annotations. -/
theorem range_reads {ws : Rune → Prop} {b : RuleBase} {x : Rune} {xu : Bool} {y : Rune} {yu : Bool} (hb : b.name = [])
    (hx : xu = false → Scalar x ∧ x ≠ 92) (hx' : xu = true → Code x) (hy : RangeEnd (printEnd b y yu) y yu) (out : List Rune) :
    Flagged ws (annotation b ++ printEnd b x xu ++ runes "-" ++ printEnd b y yu ++ out) b
      ((if xu then runes "\\u" ++ hex4 x.toNat else printEnd b x false) ++ 45 :: (printEnd b y yu ++ out)) ∧
    Simple b ((if xu then runes "\\u" ++ hex4 x.toNat else printEnd b x false) ++ 45 :: (printEnd b y yu ++ out)) (.range b x xu y yu) out := by
  cases xu with
  | false =>
    obtain ⟨src, e, hs⟩ := first_ok (b := b) (hx rfl)
    simp only [Bool.false_eq_true, if_false, e, r_dash, List.append_assoc]
    constructor
    · exact flagged_base hb (by intro h; cases h)
    · have := Simple.charRange (b := b) (out := out) hs hy
      simpa using this
  | true =>
    have hc := hex4_ok (hx' rfl)
    have he : printEnd b x true = annotation b ++ (runes "\\u" ++ hex4 x.toNat) := by
      unfold printEnd
      rw [if_pos rfl, List.append_assoc]
    rw [he, if_pos rfl, r_u, r_dash]
    constructor
    · have h1 := flagged_base (ws := ws) (b := b) hb (inp := [92, 117] ++ hex4 x.toNat ++ 45 :: (printEnd b y yu ++ out)) (by intro h; cases h)
      have h2 := flagged_annotation (b := b) h1 (by
        obtain ⟨n, v, d, t⟩ := b
        cases v <;> cases d <;> cases t <;> (intro h; cases h))
      simp only [Bool.or_self] at h2
      simpa using h2
    · have := Simple.codeRange (b := b) (out := out) hc hy
      simpa using this

/-! ## Choices and concatenations -/

/-- Alternatives after '|'. -/
def bars (g : List Rule) : List (Rune × Rule) := g.map (fun r => ((124 : Rune), r))

/-- The alternatives of a group after '>'. -/
def ordered : List Rule → List (Rune × Rule)
  | [] => []
  | r :: rs => (62, r) :: bars rs

/-- The alternatives after the first one, with the operators before them. -/
def altsOf (g : List Rule) (gs : List (List Rule)) : List (Rune × Rule) :=
  bars g ++ gs.flatMap ordered

/-- Alternatives as they are printed. -/
def altsText : List (Rune × Rule) → List Rune
  | [] => []
  | (op, r) :: alts => 32 :: op :: 32 :: (r.print ++ altsText alts)

theorem altsText_append : ∀ a b, altsText (a ++ b) = altsText a ++ altsText b
  | [], _ => rfl
  | (op, r) :: a, b => by
    show 32 :: op :: 32 :: (r.print ++ altsText (a ++ b)) = _
    rw [altsText_append a b]
    simp [altsText]

theorem printSeq_bar : ∀ (r : Rule) (g : List Rule), printSeq (runes " | ") (r :: g) = r.print ++ altsText (bars g)
  | r, [] => by simp [printSeq, altsText, bars]
  | r, r' :: g => by
    rw [printSeq, printSeq_bar r' g, r_bar]
    simp [altsText, bars]

theorem printGroups_alts : ∀ (gs : List (List Rule)) (r : Rule) (g : List Rule), (∀ g ∈ gs, g ≠ []) →
    printGroups ((r :: g) :: gs) = r.print ++ altsText (altsOf g gs)
  | [], r, g, _ => by
    rw [printGroups, printSeq_bar]
    simp [altsOf]
  | [] :: gs, r, g, h => absurd rfl (h [] List.mem_cons_self)
  | (r' :: g') :: gs, r, g, h => by
    rw [printGroups, printSeq_bar, printGroups_alts gs r' g' (fun g hg => h g (List.mem_cons_of_mem _ hg)), r_or]
    simp [altsOf, altsText_append, altsText, ordered]

theorem grouped_bars : ∀ (g acc : List Rule) (alts : List (Rune × Rule)), grouped acc (bars g ++ alts) = grouped (acc ++ g) alts
  | [], acc, alts => by simp [bars]
  | r :: g, acc, alts => by
    show grouped acc ((124, r) :: (bars g ++ alts)) = _
    rw [grouped, if_neg (by decide), grouped_bars g (acc ++ [r]) alts]
    simp

theorem grouped_alts : ∀ (gs : List (List Rule)) (acc g : List Rule), (∀ g ∈ gs, g ≠ []) → grouped acc (altsOf g gs) = (acc ++ g) :: gs
  | [], acc, g, _ => by
    unfold altsOf
    rw [grouped_bars]
    rfl
  | [] :: gs, acc, g, h => absurd rfl (h [] List.mem_cons_self)
  | (r' :: g') :: gs, acc, g, h => by
    have ih := grouped_alts gs [r'] g' (fun g hg => h g (List.mem_cons_of_mem _ hg))
    unfold altsOf at ih ⊢
    rw [grouped_bars]
    show grouped (acc ++ g) ((62, r') :: (bars g' ++ gs.flatMap ordered)) = _
    rw [grouped, if_pos rfl]
    rw [ih]
    rfl

theorem altsOf_mem {g : List Rule} {gs : List (List Rule)} {a : Rune × Rule} (h : a ∈ altsOf g gs) :
    (a.1 = 124 ∨ a.1 = 62) ∧ (a.2 ∈ g ∨ ∃ g ∈ gs, a.2 ∈ g) := by
  unfold altsOf at h
  rcases List.mem_append.1 h with h | h
  · obtain ⟨r, hr, rfl⟩ := List.mem_map.1 h
    exact ⟨.inl rfl, .inl hr⟩
  · obtain ⟨g', hg, ha⟩ := List.mem_flatMap.1 h
    cases g' with
    | nil => cases ha
    | cons r rs =>
      rcases List.mem_cons.1 ha with rfl | ha
      · exact ⟨.inr rfl, .inr ⟨_, hg, List.mem_cons_self⟩⟩
      · obtain ⟨q, hq, rfl⟩ := List.mem_map.1 ha
        exact ⟨.inl rfl, .inr ⟨_, hg, List.mem_cons_of_mem _ hq⟩⟩

/-- What follows a part of a concatenation: nothing, or a space and something else. -/
def Gap (out out' : List Rune) : Prop :=
  (out = [] ∧ out' = []) ∨ (out = 32 :: out' ∧ ∀ c, out'.head? = some c → c ≠ 32 ∧ c ≠ 124 ∧ c ≠ 62)

theorem gap_follows {out out' : List Rune} (h : Gap out out') : Follows out := by
  rcases h with ⟨rfl, _⟩ | ⟨rfl, _⟩
  · exact follows_nil
  · exact follows_space _

/-- A printed part can be read, whatever follows. -/
def Readable (r : Rule) : Prop :=
  (∃ c t, r.print = c :: t ∧ Start c) ∧
    ∀ (ws : Rune → Prop) (out : List Rune), Follows out → ∃ b m, Flagged ws (r.print ++ out) b m ∧ Simple b m r out

theorem altsText_follows {alts : List (Rune × Rule)} {out : List Rune} (h : Follows out) : Follows (altsText alts ++ out) := by
  cases alts with
  | nil => exact h
  | cons a alts => exact follows_space _

theorem alts_reads {out out' : List Rune} (hg : Gap out out') : ∀ alts : List (Rune × Rule), (∀ a ∈ alts, (a.1 = 124 ∨ a.1 = 62) ∧ Readable a.2) →
    Alternatives (altsText alts ++ out) alts out'
  | [], _ => by
    rcases hg with ⟨rfl, rfl⟩ | ⟨rfl, h⟩
    · exact .nil (spaces_refl _) (by simp) (by simp) (by simp)
    · exact .nil ⟨[32], rfl, by simp⟩ (fun e => (h _ e).1 rfl) (fun e => (h _ e).2.1 rfl) (fun e => (h _ e).2.2 rfl)
  | (op, r) :: alts, h => by
    have ih := alts_reads hg alts (fun a ha => h a (List.mem_cons_of_mem _ ha))
    obtain ⟨ho, _, hr⟩ := h _ List.mem_cons_self
    obtain ⟨b, m, hm, hs⟩ := hr AfterBar (altsText alts ++ out) (altsText_follows (gap_follows hg))
    have : altsText ((op, r) :: alts) ++ out = 32 :: op :: 32 :: (r.print ++ (altsText alts ++ out)) := by simp [altsText]
    rw [this]
    exact .cons ⟨[32], rfl, by simp⟩ ho (.white (.inl rfl) hm) hs ih

/-- The terminators of a definition that is not part of a block. -/
def Free (terms : List Rune) : Prop := 32 ∉ terms ∧ 124 ∉ terms ∧ 62 ∉ terms

theorem between_space {terms : List Rune} (h : Free terms) : Between terms 32 := ⟨by decide, h.1⟩

/-- A printed part of a concatenation can be read. -/
def ReadablePart (r : Rule) : Prop :=
  (∃ c t, r.print = c :: t ∧ Start c) ∧
    ∀ (terms out out' : List Rune), Free terms → Gap out out' → ∃ o, (o = out ∨ o = out') ∧
      ∃ b m1 r0 m2, Flagged (Between terms) (r.print ++ out) b m1 ∧ Simple b m1 r0 m2 ∧ Choices terms r0 m2 r o

theorem readable_part {r : Rule} (h : Readable r) : ReadablePart r := by
  refine ⟨h.1, fun terms out out' _ hg => ?_⟩
  obtain ⟨b, m, hm, hs⟩ := h.2 (Between terms) out (gap_follows hg)
  exact ⟨out, .inl rfl, b, m, r, out, hm, hs, .nil⟩

theorem choice_part {gs : List (List Rule)} (hg : ∀ g ∈ gs, g ≠ []) (hr : ∀ g ∈ gs, ∀ r ∈ g, Readable r) (h2 : 2 ≤ (gs.map List.length).sum) :
    ReadablePart (.choice {} gs) := by
  cases gs with
  | nil => simp at h2
  | cons g gs =>
    cases g with
    | nil => exact absurd rfl (hg [] List.mem_cons_self)
    | cons r g =>
      have hg' : ∀ g ∈ gs, g ≠ [] := fun g' h' => hg g' (List.mem_cons_of_mem _ h')
      have hp : (Rule.choice {} ((r :: g) :: gs)).print = r.print ++ altsText (altsOf g gs) := by
        rw [Rule.print, if_pos (by rfl), printGroups_alts gs r g hg']
      have hr0 := hr _ List.mem_cons_self r List.mem_cons_self
      refine ⟨?_, fun terms out out' ht hgap => ?_⟩
      · obtain ⟨c, t, e, hc⟩ := hr0.1
        rw [hp, e]
        exact ⟨c, _, rfl, hc⟩
      · rw [hp, List.append_assoc]
        obtain ⟨b, m, hm, hs⟩ := hr0.2 (Between terms) _ (altsText_follows (alts := altsOf g gs) (gap_follows hgap))
        have ha : ∀ a ∈ altsOf g gs, (a.1 = 124 ∨ a.1 = 62) ∧ Readable a.2 := by
          intro a ha
          obtain ⟨h1, h2⟩ := altsOf_mem ha
          refine ⟨h1, ?_⟩
          rcases h2 with h2 | ⟨g', hg', h2⟩
          · exact hr _ List.mem_cons_self _ (List.mem_cons_of_mem _ h2)
          · exact hr _ (List.mem_cons_of_mem _ hg') _ h2
        have hgr := grouped_alts gs [r] g hg'
        cases halts : altsOf g gs with
        | nil =>
          rw [halts] at hgr
          cases g with
          | cons => cases hgr
          | nil =>
            simp only [grouped, List.cons.injEq] at hgr
            rw [← hgr.2] at h2
            simp at h2
        | cons a alts =>
          rw [halts] at ha hm hs hgr
          obtain ⟨op, r1⟩ := a
          obtain ⟨ho, _, hr1⟩ := ha _ List.mem_cons_self
          obtain ⟨b1, m1, hm1, hs1⟩ := hr1 AfterBar (altsText alts ++ out) (altsText_follows (gap_follows hgap))
          have hrest := alts_reads hgap alts (fun a h => ha a (List.mem_cons_of_mem _ h))
          refine ⟨out', .inr rfl, b, m, r, altsText ((op, r1) :: alts) ++ out, hm, hs, ?_⟩
          have e : altsText ((op, r1) :: alts) ++ out = 32 :: op :: 32 :: (r1.print ++ (altsText alts ++ out)) := by simp [altsText]
          rw [e]
          have hch := Choices.cons (terms := terms) (r := r) (b := {}) (alts := (op, r1) :: alts) (r' := .choice {} (grouped [r] ((op, r1) :: alts)))
            (.white (between_space ht) .none) ho (by rcases ho with rfl | rfl; exact ht.2.1; exact ht.2.2)
            (Alternatives.cons (spaces_refl _) ho (.white (.inl rfl) hm1) hs1 hrest) .nil
          rw [hgr] at hch
          exact hch

theorem parts_white {terms inp : List Rune} {r : Rule} {rs : List Rule} {out : List Rune} (ht : Free terms) (h : Parts terms inp (r :: rs) out) :
    Parts terms (32 :: inp) (r :: rs) out := by
  cases h with
  | cons hm hs hc hp => exact .cons (.white (between_space ht) hm) hs hc hp

theorem printSeq_start : ∀ (r : Rule) (rs : List Rule), ReadablePart r → ∃ c t, printSeq (runes " ") (r :: rs) = c :: t ∧ Start c
  | r, [], h => by rw [printSeq]; exact h.1
  | r, r' :: rs, h => by
    obtain ⟨c, t, e, hc⟩ := h.1
    rw [printSeq, e]
    exact ⟨c, _, rfl, hc⟩

theorem parts_reads {terms out out' : List Rune} (ht : Free terms) (hg : Gap out out') : ∀ (r : Rule) (rs : List Rule), (∀ q ∈ r :: rs, ReadablePart q) →
    ∃ o, (o = out ∨ o = out') ∧ Parts terms (printSeq (runes " ") (r :: rs) ++ out) (r :: rs) o
  | r, [], h => by
    obtain ⟨o, ho, b, m1, r0, m2, h1, h2, h3⟩ := (h r List.mem_cons_self).2 terms out out' ht hg
    refine ⟨o, ho, ?_⟩
    rw [printSeq]
    exact .cons h1 h2 h3 .nil
  | r, r' :: rs, h => by
    obtain ⟨o, ho, ih⟩ := parts_reads ht hg r' rs (fun q hq => h q (List.mem_cons_of_mem _ hq))
    obtain ⟨c, t, e, hc⟩ := printSeq_start r' rs (h r' (by simp))
    have hg' : Gap (32 :: (printSeq (runes " ") (r' :: rs) ++ out)) (printSeq (runes " ") (r' :: rs) ++ out) := by
      refine .inr ⟨rfl, fun d hd => ?_⟩
      rw [e] at hd
      cases hd
      exact ⟨hc.2.2.2.2, hc.2.1, hc.2.2.1⟩
    obtain ⟨o1, ho1, b, m1, r0, m2, h1, h2, h3⟩ := (h r List.mem_cons_self).2 terms _ _ ht hg'
    refine ⟨o, ho, ?_⟩
    have ep : printSeq (runes " ") (r :: r' :: rs) ++ out = r.print ++ (32 :: (printSeq (runes " ") (r' :: rs) ++ out)) := by
      rw [printSeq, r_sp]
      simp
    rw [ep]
    refine .cons h1 h2 h3 ?_
    rcases ho1 with rfl | rfl
    · exact parts_white ht ih
    · exact ih

/-- What follows a definition: the end of the text, or a space and a terminator. -/
def Ending (terms out fin : List Rune) : Prop :=
  (out = [] ∧ fin = []) ∨ (out = 32 :: fin ∧ ∃ x t, fin = x :: t ∧ x ∈ terms)

theorem ending_gap {terms out fin : List Rune} (ht : Free terms) (h : Ending terms out fin) : Gap out fin := by
  rcases h with h | ⟨rfl, x, t, rfl, hx⟩
  · exact .inl h
  · refine .inr ⟨rfl, fun c hc => ?_⟩
    cases hc
    exact ⟨fun e => ht.1 (e ▸ hx), fun e => ht.2.1 (e ▸ hx), fun e => ht.2.2 (e ▸ hx)⟩

theorem ending_finish {terms out fin o : List Rune} (ht : Free terms) (h : Ending terms out fin) (ho : o = out ∨ o = fin) : Finish terms o fin := by
  rcases h with ⟨rfl, rfl⟩ | ⟨rfl, x, t, rfl, hx⟩
  · have : o = [] := by rcases ho with h | h <;> exact h
    subst this
    exact .ended .none (.inl rfl)
  · rcases ho with rfl | rfl
    · exact .term (.white (between_space ht) .none) hx
    · exact .term .none hx

/-- A printed definition can be read. -/
def ReadableDef (r : Rule) : Prop :=
  ∀ (terms inp out fin : List Rune), Free terms → Ending terms out fin → Blank inp (r.print ++ out) → Definition terms inp r fin

theorem part_def {r : Rule} (h : ReadablePart r) : ReadableDef r := by
  intro terms inp out fin ht he hb
  obtain ⟨o, ho, b, m1, r0, m2, h1, h2, h3⟩ := h.2 terms out fin ht (ending_gap ht he)
  exact .one hb (.cons h1 h2 h3 .nil) (ending_finish ht he ho)

theorem concat_def {rs : List Rule} (h : ∀ r ∈ rs, ReadablePart r) (h2 : 2 ≤ rs.length) : ReadableDef (.concat {} rs) := by
  intro terms inp out fin ht he hb
  rw [Rule.print, if_pos (by rfl)] at hb
  cases rs with
  | nil => simp at h2
  | cons r rs =>
    obtain ⟨o, ho, hp⟩ := parts_reads ht (ending_gap ht he) r rs h
    exact .several hb hp h2 (ending_finish ht he ho)

/-! ## Blocks -/

/-- A printed part as a part of a block. -/
theorem block_part {r : Rule} (h : Readable r) {terms inp out fin : List Rune} (hb : Blank inp (r.print ++ out)) (ho : Follows out) (hf : Finish terms out fin) :
    Definition terms inp r fin := by
  obtain ⟨b, m, hm, hs⟩ := h.2 (Between terms) out ho
  exact .one hb (.cons hm hs .nil .nil) hf

theorem finish_space (t : List Rune) : Finish [32, 62, 33] (32 :: t) (32 :: t) := .term .none (by decide)
theorem finish_close {terms : List Rune} (h : 62 ∈ terms) (t : List Rune) : Finish terms (62 :: t) (62 :: t) := .term .none h

theorem blank_space (t : List Rune) : Blank (32 :: t) t := ⟨[32], rfl, by decide⟩

theorem excludes_reads : ∀ (x : List Rule), (∀ r ∈ x, Readable r) → ∀ t, Excludes (printExcludes x ++ 32 :: t) x t
  | [], _, t => .nil (blank_space t)
  | r :: x, h, t => by
    have ih := excludes_reads x (fun q hq => h q (List.mem_cons_of_mem _ hq)) t
    have e : printExcludes (r :: x) ++ 32 :: t = 32 :: 94 :: (r.print ++ (printExcludes x ++ 32 :: t)) := by
      rw [printExcludes, r_hat]
      simp
    rw [e]
    have hh : ∃ u, printExcludes x ++ 32 :: t = 32 :: u := by
      cases x with
      | nil => exact ⟨t, rfl⟩
      | cons q x => rw [printExcludes, r_hat]; exact ⟨_, rfl⟩
    obtain ⟨u, hu⟩ := hh
    rw [hu] at ih ⊢
    exact .cons (blank_space _) (block_part (h r List.mem_cons_self) (blank_refl _) (follows_space u) (finish_space u)) ih

/-- The end of a printed block. -/
def blockTail (v : Bool) : List Rune := (if v then runes " !" else []) ++ runes ">"

theorem tail_close {c : Rule} (h : Readable c) (v : Bool) (out : List Rune) :
    ∃ m, Definition [62, 33] (c.print ++ (blockTail v ++ out)) c m ∧ BlockStop m v out := by
  cases v with
  | false =>
    exact ⟨62 :: out, block_part h (blank_refl _) (follows_close out) (finish_close (by decide) out), .close⟩
  | true =>
    exact ⟨33 :: 62 :: out, block_part h (blank_refl _) (follows_space _) (.term (.white ⟨by decide, by decide⟩ .none) (by decide)), .giveBack (blank_refl _)⟩

theorem tail_close' {c : Rule} (h : Readable c) (v : Bool) (out : List Rune) :
    ∃ m m', Definition [32, 62, 33] (c.print ++ (blockTail v ++ out)) c m ∧ Blank m m' ∧ BlockStop m' v out := by
  cases v with
  | false =>
    exact ⟨62 :: out, 62 :: out, block_part h (blank_refl _) (follows_close out) (finish_close (by decide) out), blank_refl _, .close⟩
  | true =>
    exact ⟨32 :: 33 :: 62 :: out, 33 :: 62 :: out, block_part h (blank_refl _) (follows_space _) (finish_space _), blank_space _, .giveBack (blank_refl _)⟩

theorem block_reads {b : RuleBase} {o : Rule} {v : Bool} {c : Rule} {x : List Rule} (ho : Readable o) (hc : Readable c) (hx : ∀ r ∈ x, Readable r) (out : List Rune) :
    Simple b (60 :: (o.print ++ (printExcludes x ++ 32 :: (c.print ++ (blockTail v ++ out))))) (.block b o v c none x) out := by
  cases x with
  | nil =>
    obtain ⟨m, m', h1, h2, h3⟩ := tail_close' hc v out
    exact .block (block_part ho (blank_refl _) (follows_space _) (finish_space _)) (blank_space _) h1 h2 h3
  | cons r x =>
    obtain ⟨m, h1, h2⟩ := tail_close hc v out
    have hex := excludes_reads (r :: x) hx (c.print ++ (blockTail v ++ out))
    have hh : ∃ u, printExcludes (r :: x) ++ 32 :: (c.print ++ (blockTail v ++ out)) = 32 :: u := by
      rw [printExcludes, r_hat]; exact ⟨_, rfl⟩
    obtain ⟨u, hu⟩ := hh
    rw [hu] at hex ⊢
    exact .blockExcludes (block_part ho (blank_refl _) (follows_space _) (finish_space _)) hex (by simp) h1 h2

theorem blockEscape_reads {b : RuleBase} {o : Rule} {v : Bool} {c e : Rule} {x : List Rule} (ho : Readable o) (hc : Readable c) (he : Readable e)
    (hx : ∀ r ∈ x, Readable r) (out : List Rune) :
    Simple b (60 :: (o.print ++ (32 :: (e.print ++ (printExcludes x ++ 32 :: (c.print ++ (blockTail v ++ out))))))) (.block b o v c (some e) x) out := by
  obtain ⟨m, h1, h2⟩ := tail_close hc v out
  have hex := excludes_reads x hx (c.print ++ (blockTail v ++ out))
  have hh : ∃ u, printExcludes x ++ 32 :: (c.print ++ (blockTail v ++ out)) = 32 :: u := by
    cases x with
    | nil => exact ⟨_, rfl⟩
    | cons q x => rw [printExcludes, r_hat]; exact ⟨_, rfl⟩
  obtain ⟨u, hu⟩ := hh
  rw [hu] at hex ⊢
  exact .blockEscape (block_part ho (blank_refl _) (follows_space _) (finish_space _)) (blank_space _)
    (block_part he (blank_refl _) (follows_space _) (finish_space _)) hex h1 h2

/-! ## All faithful rules -/

theorem marked_readable {b : RuleBase} (hb : b.name = []) {r : Rule} {body : List Rune} (hp : r.print = annotation b ++ body) (hs : ∃ c t, body = c :: t ∧ Start c)
    (h : ∀ out, Follows out → Simple b (body ++ out) r out) : Readable r := by
  refine ⟨hp ▸ annotation_start hs, fun ws out ho => ⟨b, body ++ out, ?_, h out ho⟩⟩
  rw [hp, List.append_assoc]
  refine flagged_base hb ?_
  obtain ⟨c, t, rfl, hc⟩ := hs
  intro e
  cases e
  exact hc.2.1 rfl

theorem free_of {terms : List Rune} (h : (!terms.contains 32 && !terms.contains 124 && !terms.contains 62) = true) : Free terms := by
  simpa [Free, and_assoc] using h

theorem name_text {n : Name} {out : List Rune} (hn : ∃ c cs, n = c :: cs ∧ (Letter c ∨ c = 95) ∧ ∀ d ∈ cs, Letter d ∨ Digit d ∨ d = 95) (ho : Follows out) :
    NameText n out := by
  refine ⟨hn, fun d hd => ?_⟩
  rcases ho d hd with rfl | rfl <;> (unfold Letter Digit; decide)

mutual
theorem faithful_readable : ∀ {r : Rule}, Faithful r → Readable r
  | _, .eof (b := b) hb => by
    refine marked_readable hb (body := runes "EOF") (by rw [Rule.print]) ⟨69, [79, 70], rfl, start_const (by decide)⟩ (fun out ho => ?_)
    refine .eof (name_text ?_ ho)
    exact ⟨69, [79, 70], by decide, .inl (by unfold Letter; decide), by unfold Letter Digit; decide⟩
  | _, .char (b := b) (c := c) hb hc => by
    by_cases h1 : c = ch '\\'
    · refine marked_readable hb (body := runes "'\\\\'") (by rw [Rule.print, printChar, if_neg (by decide), if_pos h1]) ⟨39, _, rfl, start_const (by decide)⟩ (fun out ho => ?_)
      rw [h1]
      exact .char (src := [92, 92]) (u := false) (.escape .nil (by decide)) (follows_ne ho 45 (by decide) (by decide))
    · by_cases h2 : c = ch '\''
      · refine marked_readable hb (body := runes "'\\''") (by rw [Rule.print, printChar, if_neg (by decide), if_neg h1, if_pos h2]) ⟨39, _, rfl, start_const (by decide)⟩ (fun out ho => ?_)
        rw [h2]
        exact .char (src := [92, 39]) (u := false) (.escape .nil (by decide)) (follows_ne ho 45 (by decide) (by decide))
      · refine marked_readable hb (body := [39, c, 39]) (by
          rw [Rule.print, printChar, if_neg (by decide), if_neg h1, if_neg h2, scalar_via hc, r_quote]; simp) ⟨39, _, rfl, start_const (by decide)⟩ (fun out ho => ?_)
        exact .char (src := [c]) (u := false) (.plain .nil h2 h1 (scalar_ne hc)) (follows_ne ho 45 (by decide) (by decide))
  | _, .code (b := b) (c := c) hb hc => by
    refine marked_readable hb (body := 92 :: 117 :: hex4 c.toNat) (by rw [Rule.print, printChar, if_pos rfl, r_u]; simp) ⟨92, _, rfl, start_const (by decide)⟩ (fun out ho => ?_)
    exact .code (hex4_ok hc) (follows_ne ho 45 (by decide) (by decide))
  | _, .range (b := b) (x := x) (xu := xu) (y := y) hb hx hx' hy h1 h2 => by
    refine ⟨?_, fun ws out _ => ?_⟩
    · rw [Rule.print, List.append_assoc, List.append_assoc]
      refine annotation_start ?_
      cases xu with
      | false =>
        obtain ⟨src, e, _⟩ := first_ok (b := b) (hx rfl)
        rw [e]
        exact ⟨39, _, rfl, start_const (by decide)⟩
      | true =>
        unfold printEnd
        rw [if_pos rfl, r_u, List.append_assoc, List.append_assoc]
        exact annotation_start ⟨92, _, rfl, start_const (by decide)⟩
    · have := range_reads (ws := ws) hb hx hx' (last_ok (b := b) hy h1 h2) out
      rw [Rule.print]
      exact ⟨_, _, this⟩
  | _, .rangeCode (x := x) (xu := xu) (y := y) hx hx' hy => by
    refine ⟨?_, fun ws out _ => ?_⟩
    · rw [Rule.print, List.append_assoc, List.append_assoc]
      refine annotation_start ?_
      cases xu with
      | false =>
        obtain ⟨src, e, _⟩ := first_ok (b := {}) (hx rfl)
        rw [e]
        exact ⟨39, _, rfl, start_const (by decide)⟩
      | true =>
        unfold printEnd
        rw [if_pos rfl, r_u, List.append_assoc, List.append_assoc]
        exact annotation_start ⟨92, _, rfl, start_const (by decide)⟩
    · have := range_reads (ws := ws) rfl hx hx' (lastCode_ok hy) out
      rw [Rule.print]
      exact ⟨_, _, this⟩
  | _, .chars (b := b) (t := t) hb h2 ht => by
    refine marked_readable hb (body := 39 :: escapeQuote t ++ [39]) (by
      rw [Rule.print, map_via (fun c hc => (ht c hc).1), r_quote]; simp) ⟨39, _, rfl, start_const (by decide)⟩ (fun out ho => ?_)
    have := Simple.chars (b := b) (out := out) (escapeQuote_ok t ht) h2
    simpa using this
  | _, .str (b := b) (t := t) hb ht => by
    refine marked_readable hb (body := 34 :: t ++ [34]) (by
      rw [Rule.print, map_via (fun c hc => (ht c hc).1), r_dquote]; simp) ⟨34, _, rfl, start_const (by decide)⟩ (fun out ho => ?_)
    have := Simple.string (b := b) (out := out) (string_ok t ht)
    rw [map_via (fun c hc => (ht c hc).1)] at this
    simpa using this
  | _, .group (b := b) (r := r) hb hr => by
    have ih := faithfulDef_readable hr
    refine marked_readable hb (body := 40 :: 32 :: (r.print ++ [32, 41])) (by rw [Rule.print, r_lp, r_rp]; simp) ⟨40, _, rfl, start_const (by decide)⟩ (fun out ho => ?_)
    refine .group (ih [41] _ (32 :: 41 :: out) _ (free_of (by decide)) (.inr ⟨rfl, 41, out, rfl, by decide⟩) ?_)
    exact ⟨[32], by simp, by decide⟩
  | _, .option (b := b) (r := r) hb hr => by
    have ih := faithfulDef_readable hr
    refine marked_readable hb (body := 91 :: 32 :: (r.print ++ [32, 93])) (by rw [Rule.print, r_lb, r_rb]; simp) ⟨91, _, rfl, start_const (by decide)⟩ (fun out ho => ?_)
    refine .option (ih [93] _ (32 :: 93 :: out) _ (free_of (by decide)) (.inr ⟨rfl, 93, out, rfl, by decide⟩) ?_)
    exact ⟨[32], by simp, by decide⟩
  | _, .rep (b := b) (r := r) (mn := mn) (mx := mx) hb hr h1 h2 hle => by
    have ih := faithfulDef_readable hr
    refine marked_readable hb (body := 123 :: 32 :: (r.print ++ [32, 125]) ++ printSpec mn mx) (by rw [Rule.print, r_lc, r_rc]; simp) ⟨123, _, rfl, start_const (by decide)⟩ (fun out ho => ?_)
    refine .rep (mid := printSpec mn mx ++ out) (ih [125] _ (32 :: 125 :: (printSpec mn mx ++ out)) _ (free_of (by decide)) (.inr ⟨rfl, 125, _, rfl, by decide⟩) ?_) (bounds_ok h1 h2 hle ho)
    exact ⟨[32], by simp, by decide⟩
  | _, .block (b := b) (o := o) (v := v) (c := c) (x := x) hb ho hc hx => by
    have iho := faithful_readable ho
    have ihc := faithful_readable hc
    have ihx : ∀ r ∈ x, Readable r := fun r hr => faithful_readable (hx r hr)
    refine marked_readable hb (body := 60 :: (o.print ++ (printExcludes x ++ 32 :: (c.print ++ blockTail v)))) (by
      rw [Rule.print, r_lt, r_sp]; simp [blockTail]) ⟨60, _, rfl, start_const (by decide)⟩ (fun out _ => ?_)
    have := block_reads (b := b) (v := v) iho ihc ihx out
    simpa using this
  | _, .blockEscape (b := b) (o := o) (v := v) (c := c) (e := e) (x := x) hb ho hc he hx => by
    have iho := faithful_readable ho
    have ihc := faithful_readable hc
    have ihe := faithful_readable he
    have ihx : ∀ r ∈ x, Readable r := fun r hr => faithful_readable (hx r hr)
    refine marked_readable hb (body := 60 :: (o.print ++ (32 :: (e.print ++ (printExcludes x ++ 32 :: (c.print ++ blockTail v)))))) (by
      rw [Rule.print, r_lt, r_sp]; simp [blockTail]) ⟨60, _, rfl, start_const (by decide)⟩ (fun out _ => ?_)
    have := blockEscape_reads (b := b) (v := v) iho ihc ihe ihx out
    simpa using this
  | _, .ref (b := b) (n := n) hb hn => by
    obtain ⟨⟨c, cs, e, hc, hcs⟩, hne⟩ := hn
    refine marked_readable hb (body := n) (by rw [Rule.print]) ⟨c, cs, e, letter_start hc⟩ (fun out ho => ?_)
    exact .ref (name_text ⟨c, cs, e, hc, hcs⟩ ho) hne
theorem faithfulPart_readable : ∀ {r : Rule}, FaithfulPart r → ReadablePart r
  | _, .simple h => readable_part (faithful_readable h)
  | _, .choice hg hr h2 => choice_part hg (fun g hg' r hr' => faithful_readable (hr g hg' r hr')) h2
theorem faithfulDef_readable : ∀ {r : Rule}, FaithfulDef r → ReadableDef r
  | _, .part h => part_def (faithfulPart_readable h)
  | _, .concat hr h2 => concat_def (fun r hr' => faithfulPart_readable (hr r hr')) h2
end

/-! ## The last character -/

/-- A text that does not end in white space. -/
def EndsWell (l : List Rune) : Prop := ∃ t c, l = t ++ [c] ∧ isWhiteSpace c = false

theorem ends_append {l : List Rune} (a : List Rune) (h : EndsWell l) : EndsWell (a ++ l) := by
  obtain ⟨t, c, rfl, hc⟩ := h
  exact ⟨a ++ t, c, by simp, hc⟩

theorem ends_const (t : List Rune) {c : Rune} (h : isWhiteSpace c = false) : EndsWell (t ++ [c]) := ⟨t, c, rfl, h⟩

theorem alnum_ends {c : Rune} (h : 48 ≤ c ∧ c ≤ 122) : isWhiteSpace c = false := by
  cases hw : isWhiteSpace c with
  | false => rfl
  | true =>
    unfold isWhiteSpace at hw
    rw [List.contains_iff_mem] at hw
    have : ∀ d ∈ whiteSpaceTable, d < 48 ∨ 122 < d := by decide
    have := this c hw
    unfold Rune at *
    omega

theorem hex4_ends (n : Nat) : EndsWell (hex4 n) := by
  refine ⟨[hexDigit (n / 4096 % 16), hexDigit (n / 256 % 16), hexDigit (n / 16 % 16)], _, rfl, alnum_ends ?_⟩
  have := Nat.mod_lt n (show 16 > 0 by decide)
  unfold hexDigit
  split <;> (unfold Rune; omega)

theorem spec_ends (mn mx : Nat) : printSpec mn mx = [] ∨ EndsWell (printSpec mn mx) := by
  unfold printSpec
  split
  · split
    · exact .inr (ends_append _ ⟨[], 62, by decide, by decide⟩)
    · exact .inl rfl
  · split
    · split
      · exact .inr ⟨[], 43, by decide, by decide⟩
      · exact .inr (ends_append _ ⟨[44, 48], 62, by decide, by decide⟩)
    · exact .inr (ends_append _ ⟨[], 62, by decide, by decide⟩)

theorem end_ends (b : RuleBase) (c : Rune) (u : Bool) : EndsWell (printEnd b c u) := by
  unfold printEnd
  split
  · exact ends_append _ (hex4_ends _)
  · split
    · exact ⟨[39, 92, 39], 39, by decide, by decide⟩
    · exact ends_append _ ⟨[], 39, by decide, by decide⟩

theorem faithful_ends {r : Rule} (h : Faithful r) : EndsWell r.print := by
  cases h with
  | eof => rw [Rule.print]; exact ends_append _ ⟨[69, 79], 70, by decide, by decide⟩
  | char hb hc =>
    rw [Rule.print, printChar, if_neg (by decide)]
    split
    · exact ends_append _ ⟨[39, 92, 92], 39, by decide, by decide⟩
    · split
      · exact ends_append _ ⟨[39, 92, 39], 39, by decide, by decide⟩
      · exact ends_append _ ⟨[], 39, by decide, by decide⟩
  | code hb hc => rw [Rule.print, printChar, if_pos rfl]; exact ends_append _ (hex4_ends _)
  | range => rw [Rule.print]; exact ends_append _ (end_ends _ _ _)
  | rangeCode => rw [Rule.print]; exact ends_append _ (end_ends _ _ _)
  | chars => rw [Rule.print]; exact ends_append _ ⟨[], 39, by decide, by decide⟩
  | str => rw [Rule.print]; exact ends_append _ ⟨[], 34, by decide, by decide⟩
  | group => rw [Rule.print]; exact ends_append _ ⟨[32], 41, by decide, by decide⟩
  | option => rw [Rule.print]; exact ends_append _ ⟨[32], 93, by decide, by decide⟩
  | @rep b r mn mx =>
    rw [Rule.print]
    rcases spec_ends mn mx with h | h
    · rw [h, List.append_nil]; exact ends_append _ ⟨[32], 125, by decide, by decide⟩
    · exact ends_append _ h
  | block => rw [Rule.print]; exact ends_append _ ⟨[], 62, by decide, by decide⟩
  | blockEscape => rw [Rule.print]; exact ends_append _ ⟨[], 62, by decide, by decide⟩
  | @ref b n hb hn =>
    rw [Rule.print]
    refine ends_append _ ?_
    obtain ⟨⟨c, cs, rfl, hc, hcs⟩, _⟩ := hn
    have hall : ∀ d ∈ c :: cs, 48 ≤ d ∧ d ≤ 122 := by
      intro d hd
      have : Letter d ∨ Digit d ∨ d = 95 := by
        rcases List.mem_cons.1 hd with rfl | hd
        · rcases hc with h | h
          · exact .inl h
          · exact .inr (.inr h)
        · exact hcs d hd
      unfold Letter Digit at this
      unfold Rune at *
      omega
    refine ⟨(c :: cs).dropLast, (c :: cs).getLast (by simp), (List.dropLast_concat_getLast _).symm, alnum_ends (hall _ (List.getLast_mem _))⟩

theorem alts_ends : ∀ (alts : List (Rune × Rule)) (l : List Rune), EndsWell l → (∀ a ∈ alts, EndsWell a.2.print) → EndsWell (l ++ altsText alts)
  | [], l, h, _ => by simpa [altsText] using h
  | (op, r) :: alts, l, _, h => by
    have ih := alts_ends alts r.print (h _ List.mem_cons_self) (fun a ha => h a (List.mem_cons_of_mem _ ha))
    have e : l ++ altsText ((op, r) :: alts) = (l ++ [32, op, 32]) ++ (r.print ++ altsText alts) := by simp [altsText]
    rw [e]
    exact ends_append _ ih

theorem part_ends {r : Rule} (h : FaithfulPart r) : EndsWell r.print := by
  cases h with
  | simple h => exact faithful_ends h
  | @choice gs hg hr h2 =>
    cases gs with
    | nil => simp at h2
    | cons g gs =>
      cases g with
      | nil => exact absurd rfl (hg [] List.mem_cons_self)
      | cons r g =>
        rw [Rule.print, if_pos (by rfl), printGroups_alts gs r g (fun g' h' => hg g' (List.mem_cons_of_mem _ h'))]
        refine alts_ends _ _ (faithful_ends (hr _ List.mem_cons_self r List.mem_cons_self)) (fun a ha => faithful_ends ?_)
        rcases (altsOf_mem ha).2 with h | ⟨g', hg', h⟩
        · exact hr _ List.mem_cons_self _ (List.mem_cons_of_mem _ h)
        · exact hr _ (List.mem_cons_of_mem _ hg') _ h

theorem seq_ends : ∀ (r : Rule) (rs : List Rule), (∀ q ∈ r :: rs, FaithfulPart q) → EndsWell (printSeq (runes " ") (r :: rs))
  | r, [], h => by rw [printSeq]; exact part_ends (h r List.mem_cons_self)
  | r, r' :: rs, h => by
    rw [printSeq]
    exact ends_append _ (seq_ends r' rs (fun q hq => h q (List.mem_cons_of_mem _ hq)))

theorem def_ends {r : Rule} (h : FaithfulDef r) : EndsWell r.print := by
  cases h with
  | part h => exact part_ends h
  | @concat rs hr h2 =>
    cases rs with
    | nil => simp at h2
    | cons r rs =>
      rw [Rule.print, if_pos (by rfl)]
      exact seq_ends r rs hr

theorem def_begins {r : Rule} (h : FaithfulDef r) : ∃ c t, r.print = c :: t ∧ Start c := by
  cases h with
  | part h => exact (faithfulPart_readable h).1
  | @concat rs hr h2 =>
    cases rs with
    | nil => simp at h2
    | cons r rs =>
      rw [Rule.print, if_pos (by rfl)]
      exact printSeq_start r rs (faithfulPart_readable (hr r List.mem_cons_self))

end Xbnf.Props
