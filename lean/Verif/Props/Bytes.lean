import Verif.Model.Bytes
import Verif.Spec.Bytes
import Verif.Lemmas.Stream
import Verif.Props.Reachable
/-
C62: Go strings are bytes.
-/
namespace Xbnf.Props
open Xbnf Xbnf.Spec Xbnf.UTF8

/-! ## One character -/

theorem viaUTF8_scalar (c : Rune) : Scalar (viaUTF8 c) := by
  unfold Rune at *
  unfold viaUTF8 Scalar
  split
  · assumption
  · right; decide

theorem viaUTF8_keep {c : Rune} (h : Scalar c) : viaUTF8 c = c := by
  unfold Scalar at h
  unfold viaUTF8
  rw [if_pos h]

/-- The shapes of the bytes of a character. -/
theorem encode1_shape {c : Rune} (h : Scalar c) :
    (∃ n : Nat, c = n ∧ n < 0x80 ∧ encode1 c = [n]) ∨
    (∃ n b0 b1 : Nat, c = n ∧ 0x80 ≤ n ∧ n < 0x800 ∧ encode1 c = [b0, b1] ∧ 0xC2 ≤ b0 ∧ b0 < 0xE0 ∧ isCont b1 ∧ n = (b0 - 0xC0) * 64 + six b1) ∨
    (∃ n b0 b1 b2 : Nat, c = n ∧ 0x800 ≤ n ∧ encode1 c = [b0, b1, b2] ∧ 0xE0 ≤ b0 ∧ b0 < 0xF0 ∧ second3 b0 b1 ∧ isCont b1 ∧ isCont b2 ∧
      n = (b0 - 0xE0) * 4096 + six b1 * 64 + six b2) ∨
    (∃ n b0 b1 b2 b3 : Nat, c = n ∧ 0x10000 ≤ n ∧ encode1 c = [b0, b1, b2, b3] ∧ 0xF0 ≤ b0 ∧ b0 < 0xF5 ∧ second4 b0 b1 ∧ isCont b1 ∧ isCont b2 ∧ isCont b3 ∧
      n = (b0 - 0xF0) * 262144 + six b1 * 4096 + six b2 * 64 + six b3) := by
  unfold Rune at *
  have hv := viaUTF8_keep h
  unfold Scalar Rune at h
  obtain ⟨n, rfl⟩ : ∃ n : Nat, c = n := ⟨c.toNat, by omega⟩
  unfold encode1
  rw [hv]
  simp only [Int.toNat_natCast]
  by_cases h1 : n < 0x80
  · exact .inl ⟨n, rfl, h1, by rw [if_pos h1]⟩
  by_cases h2 : n < 0x800
  · refine .inr (.inl ⟨n, 0xC0 + n / 64, 0x80 + n % 64, rfl, by omega, h2, by rw [if_neg h1, if_pos h2], by omega, by omega, ?_, ?_⟩)
    · simp only [isCont, Bool.and_eq_true, decide_eq_true_eq]; omega
    · unfold six; omega
  by_cases h3 : n < 0x10000
  · refine .inr (.inr (.inl ⟨n, 0xE0 + n / 4096, 0x80 + n / 64 % 64, 0x80 + n % 64, rfl, by omega,
      by rw [if_neg h1, if_neg h2, if_pos h3], by omega, by omega, ?_, ?_, ?_, ?_⟩))
    · unfold second3 isCont
      split
      · simp only [Bool.and_eq_true, decide_eq_true_eq]; omega
      · split <;> simp only [Bool.and_eq_true, decide_eq_true_eq] <;> omega
    · simp only [isCont, Bool.and_eq_true, decide_eq_true_eq]; omega
    · simp only [isCont, Bool.and_eq_true, decide_eq_true_eq]; omega
    · unfold six; omega
  · refine .inr (.inr (.inr ⟨n, 0xF0 + n / 262144, 0x80 + n / 4096 % 64, 0x80 + n / 64 % 64, 0x80 + n % 64, rfl, by omega,
      by rw [if_neg h1, if_neg h2, if_neg h3], by omega, by omega, ?_, ?_, ?_, ?_, ?_⟩))
    · unfold second4 isCont
      split
      · simp only [Bool.and_eq_true, decide_eq_true_eq]; omega
      · split <;> simp only [Bool.and_eq_true, decide_eq_true_eq] <;> omega
    · simp only [isCont, Bool.and_eq_true, decide_eq_true_eq]; omega
    · simp only [isCont, Bool.and_eq_true, decide_eq_true_eq]; omega
    · simp only [isCont, Bool.and_eq_true, decide_eq_true_eq]; omega
    · unfold six; omega

/-- The bytes of a character are read as this character. -/
theorem first_encode {c : Rune} (h : Scalar c) (rest : List Nat) : first (encode1 c ++ rest) = (c, (encode1 c).length) := by
  rcases encode1_shape h with ⟨n, rfl, h1, h2⟩ | ⟨n, b0, b1, rfl, h1, h2, h3, h4, h5, h6, h7⟩ |
    ⟨n, b0, b1, b2, rfl, h1, h2, h3, h4, h5, h6, h7, h8⟩ | ⟨n, b0, b1, b2, b3, rfl, h1, h2, h3, h4, h5, h6, h7, h8, h9⟩
  · rw [h2]; simp [first, h1]
  · rw [h3]
    simp only [List.cons_append, List.nil_append, first]
    rw [if_neg (by omega), if_pos ⟨h4, h5, h6⟩, ← h7]
    rfl
  · rw [h2]
    simp only [List.cons_append, List.nil_append, first]
    rw [if_neg (by omega), if_neg (by omega), if_pos ⟨h3, h4, h5, h7⟩, ← h8]
    rfl
  · rw [h2]
    simp only [List.cons_append, List.nil_append, first]
    rw [if_neg (by omega), if_neg (by omega), if_neg (by omega), if_pos ⟨h3, h4, h5, h7, h8⟩, ← h9]
    rfl

/-- What is read first is a character, or a byte that is not part of one. -/
theorem first_cases (b : Nat) (bs : List Nat) :
    (first (b :: bs) = (0xFFFD, 1) ∧ 0x80 ≤ b) ∨ ∃ c rest, Scalar c ∧ b :: bs = encode1 c ++ rest := by
  have key : ∀ n : Nat, (n < 0xD800 ∨ (0xE000 ≤ n ∧ n < 0x110000)) → Scalar (n : Int) := by
    intro n h; unfold Scalar Rune; omega
  have enc : ∀ n : Nat, Scalar (n : Int) → encode1 (n : Int) = (if n < 0x80 then [n]
      else if n < 0x800 then [0xC0 + n / 64, 0x80 + n % 64]
      else if n < 0x10000 then [0xE0 + n / 4096, 0x80 + n / 64 % 64, 0x80 + n % 64]
      else [0xF0 + n / 262144, 0x80 + n / 4096 % 64, 0x80 + n / 64 % 64, 0x80 + n % 64]) := by
    intro n h
    unfold encode1
    rw [viaUTF8_keep h]
    rfl
  by_cases hb : b < 0x80
  · refine .inr ⟨(b : Int), bs, key b (by omega), ?_⟩
    rw [enc b (key b (by omega)), if_pos hb]; rfl
  match bs with
  | [] => exact .inl ⟨by simp [first, hb], by omega⟩
  | b1 :: r =>
    by_cases h2 : 0xC2 ≤ b ∧ b < 0xE0 ∧ isCont b1
    · obtain ⟨h3, h4, h5⟩ := h2
      simp only [isCont, Bool.and_eq_true, decide_eq_true_eq] at h5
      refine .inr ⟨(((b - 0xC0) * 64 + (b1 - 0x80) : Nat) : Int), r, key _ (by omega), ?_⟩
      rw [enc _ (key _ (by omega)), if_neg (by omega), if_pos (by omega)]
      simp only [List.cons_append, List.nil_append, List.cons.injEq, and_true]
      omega
    match r with
    | [] =>
      refine .inl ⟨?_, by omega⟩
      simp only [first]
      rw [if_neg hb, if_neg h2]
    | b2 :: r =>
      by_cases h3 : 0xE0 ≤ b ∧ b < 0xF0 ∧ second3 b b1 ∧ isCont b2
      · obtain ⟨h3, h4, h5, h6⟩ := h3
        unfold second3 isCont at h5
        simp only [isCont, Bool.and_eq_true, decide_eq_true_eq] at h6
        have h7 : 0x80 ≤ b1 ∧ b1 < 0xC0 ∧ (b = 0xE0 → 0xA0 ≤ b1) ∧ (b = 0xED → b1 < 0xA0) := by
          split at h5
          · simp only [Bool.and_eq_true, decide_eq_true_eq] at h5; omega
          · split at h5 <;> simp only [Bool.and_eq_true, decide_eq_true_eq] at h5 <;> omega
        refine .inr ⟨(((b - 0xE0) * 4096 + (b1 - 0x80) * 64 + (b2 - 0x80) : Nat) : Int), r, key _ (by omega), ?_⟩
        rw [enc _ (key _ (by omega)), if_neg (by omega), if_neg (by omega), if_pos (by omega)]
        simp only [List.cons_append, List.nil_append, List.cons.injEq, and_true]
        omega
      match r with
      | [] =>
        refine .inl ⟨?_, by omega⟩
        simp only [first]
        rw [if_neg hb, if_neg h2, if_neg h3]
      | b3 :: r =>
        by_cases h4 : 0xF0 ≤ b ∧ b < 0xF5 ∧ second4 b b1 ∧ isCont b2 ∧ isCont b3
        · obtain ⟨h4, h5, h6, h7, h8⟩ := h4
          unfold second4 isCont at h6
          simp only [isCont, Bool.and_eq_true, decide_eq_true_eq] at h7 h8
          have h9 : 0x80 ≤ b1 ∧ b1 < 0xC0 ∧ (b = 0xF0 → 0x90 ≤ b1) ∧ (b = 0xF4 → b1 < 0x90) := by
            split at h6
            · simp only [Bool.and_eq_true, decide_eq_true_eq] at h6; omega
            · split at h6 <;> simp only [Bool.and_eq_true, decide_eq_true_eq] at h6 <;> omega
          refine .inr ⟨(((b - 0xF0) * 262144 + (b1 - 0x80) * 4096 + (b2 - 0x80) * 64 + (b3 - 0x80) : Nat) : Int), r, key _ (by omega), ?_⟩
          rw [enc _ (key _ (by omega)), if_neg (by omega), if_neg (by omega), if_neg (by omega)]
          simp only [List.cons_append, List.nil_append, List.cons.injEq, and_true]
          omega
        · refine .inl ⟨?_, by omega⟩
          simp only [first]
          rw [if_neg hb, if_neg h2, if_neg h3, if_neg h4]

theorem encode1_length {c : Rune} (h : Scalar c) : 1 ≤ (encode1 c).length := by
  rcases encode1_shape h with ⟨n, rfl, h1, h2⟩ | ⟨n, b0, b1, rfl, h1, h2, h3, h4, h5, h6, h7⟩ |
    ⟨n, b0, b1, b2, rfl, h1, h2, h3, h4, h5, h6, h7, h8⟩ | ⟨n, b0, b1, b2, b3, rfl, h1, h2, h3, h4, h5, h6, h7, h8, h9⟩
  · rw [h2]; simp
  · rw [h3]; simp
  · rw [h2]; simp
  · rw [h2]; simp

/-- The replacement character takes three bytes. -/
theorem encode1_fffd : (encode1 0xFFFD).length = 3 := by decide

/-- The first byte of a character begins it, the others continue it. -/
theorem encode1_cont {c : Rune} (h : Scalar c) : ∃ b t, encode1 c = b :: t ∧ isCont b = false ∧ (∀ x ∈ t, isCont x = true) ∧ t.length ≤ 3 ∧
    (0x80 ≤ c → 0xC2 ≤ b ∧ t ≠ []) ∧ (c < 0x80 → t = [] ∧ c = b) := by
  have nc : ∀ b : Nat, (b < 0x80 ∨ 0xC0 ≤ b) → isCont b = false := by
    intro b hb; simp only [isCont, Bool.and_eq_false_iff, decide_eq_false_iff_not]; omega
  unfold Rune at *
  rcases encode1_shape h with ⟨n, rfl, h1, h2⟩ | ⟨n, b0, b1, rfl, h1, h2, h3, h4, h5, h6, h7⟩ |
    ⟨n, b0, b1, b2, rfl, h1, h2, h3, h4, h5, h6, h7, h8⟩ | ⟨n, b0, b1, b2, b3, rfl, h1, h2, h3, h4, h5, h6, h7, h8, h9⟩
  · exact ⟨n, [], h2, nc n (by omega), by simp, by simp, by omega, fun _ => ⟨rfl, rfl⟩⟩
  · exact ⟨b0, [b1], h3, nc b0 (by omega), by simpa using h6, by simp, fun _ => ⟨by omega, by simp⟩, by omega⟩
  · exact ⟨b0, [b1, b2], h2, nc b0 (by omega), by simp [h6, h7], by simp, fun _ => ⟨by omega, by simp⟩, by omega⟩
  · exact ⟨b0, [b1, b2, b3], h2, nc b0 (by omega), by simp [h6, h7, h8], by simp, fun _ => ⟨by omega, by simp⟩, by omega⟩

theorem first_ne_fffd {c : Rune} (h : Scalar c) (rest : List Nat) : first (encode1 c ++ rest) ≠ (0xFFFD, 1) := by
  rw [first_encode h]
  intro hc
  simp only [Prod.mk.injEq] at hc
  rw [hc.1, encode1_fffd] at hc
  omega

/-! ## Texts -/

theorem decodeLoop_enough : ∀ (n m : Nat) (bs : List Nat), bs.length ≤ n → bs.length ≤ m → decodeLoop n bs = decodeLoop m bs
  | 0, 0, _, _, _ => rfl
  | 0, m + 1, [], _, _ => rfl
  | n + 1, 0, [], _, _ => rfl
  | 0, m + 1, b :: bs, h, _ => by simp at h
  | n + 1, 0, b :: bs, _, h => by simp at h
  | n + 1, m + 1, [], _, _ => rfl
  | n + 1, m + 1, b :: bs, h1, h2 => by
    simp only [decodeLoop]
    congr 1
    have hk : 1 ≤ (first (b :: bs)).2 := by
      rcases first_cases b bs with ⟨h, _⟩ | ⟨c, rest, hc, h⟩
      · rw [h]; exact Nat.le_refl _
      · rw [h, first_encode hc]; exact encode1_length hc
    simp only [List.length_cons] at h1 h2
    exact decodeLoop_enough n m _ (by rw [List.length_drop, List.length_cons]; omega) (by rw [List.length_drop, List.length_cons]; omega)

theorem decode_nil : decode [] = [] := rfl

theorem decode_cons (b : Nat) (bs : List Nat) : decode (b :: bs) = (first (b :: bs)).1 :: decode ((b :: bs).drop (first (b :: bs)).2) := by
  have hk : 1 ≤ (first (b :: bs)).2 := by
    rcases first_cases b bs with ⟨h, _⟩ | ⟨c, rest, hc, h⟩
    · rw [h]; exact Nat.le_refl _
    · rw [h, first_encode hc]; exact encode1_length hc
  unfold decode
  rw [show (b :: bs).length = bs.length + 1 from rfl, decodeLoop]
  congr 1
  exact decodeLoop_enough _ _ _ (by rw [List.length_drop, List.length_cons]; omega) (Nat.le_refl _)

theorem decode_encode1 {c : Rune} (h : Scalar c) (rest : List Nat) : decode (encode1 c ++ rest) = c :: decode rest := by
  obtain ⟨b, t, hb, _⟩ := encode1_cont h
  have hf := first_encode h rest
  have : encode1 c ++ rest = b :: (t ++ rest) := by rw [hb]; rfl
  rw [this] at hf ⊢
  rw [decode_cons, hf, ← this, List.drop_left]

theorem decode_bad {b : Nat} {bs : List Nat} (h : first (b :: bs) = (0xFFFD, 1)) : decode (b :: bs) = 0xFFFD :: decode bs := by
  rw [decode_cons, h]; rfl

/-- How bytes are read, character by character. -/
theorem bytes_induction {P : List Nat → Prop} (nil : P [])
    (bad : ∀ b bs, first (b :: bs) = (0xFFFD, 1) → 0x80 ≤ b → decode (b :: bs) = 0xFFFD :: decode bs → P bs → P (b :: bs))
    (char : ∀ c rest, Scalar c → decode (encode1 c ++ rest) = c :: decode rest → P rest → P (encode1 c ++ rest)) : ∀ bs, P bs := by
  intro bs
  generalize hn : bs.length = n
  induction n using Nat.strongRecOn generalizing bs with
  | _ n ih =>
    match bs with
    | [] => exact nil
    | b :: bs =>
      rcases first_cases b bs with ⟨h, hb⟩ | ⟨c, rest, hc, h⟩
      · exact bad b bs h hb (decode_bad h) (ih bs.length (by simp at hn; omega) bs rfl)
      · rw [h]
        have := encode1_length hc
        rw [h, List.length_append] at hn
        exact char c rest hc (decode_encode1 hc rest) (ih rest.length (by omega) rest rfl)

/-- `[]rune(string(l))`: characters that are none become U+FFFD. -/
theorem decode_encode (l : List Rune) : decode (encode l) = l.map viaUTF8 := by
  have h1 : ∀ c : Rune, encode1 c = encode1 (viaUTF8 c) := by
    intro c; unfold encode1; rw [viaUTF8_keep (viaUTF8_scalar c)]
  induction l with
  | nil => rfl
  | cons c l ih =>
    have : encode (c :: l) = encode1 (viaUTF8 c) ++ encode l := by
      show encode1 c ++ encode l = _
      rw [h1]
    rw [this, decode_encode1 (viaUTF8_scalar c), ih]
    rfl

/-- Whatever the bytes, what is read are characters. -/
theorem decode_scalar (bs : List Nat) : ∀ c ∈ decode bs, Scalar c := by
  induction bs using bytes_induction with
  | nil => intro c hc; cases hc
  | bad b bs _ _ h ih =>
    intro c hc
    rw [h] at hc
    rcases List.mem_cons.1 hc with rfl | hc
    · right; decide
    · exact ih c hc
  | char c rest hs h ih =>
    intro d hd
    rw [h] at hd
    rcases List.mem_cons.1 hd with rfl | hd
    · exact hs
    · exact ih d hd

/-- Bytes are read anew at each byte that begins a character. -/
theorem decode_append (xs : List Nat) : ∀ (ys : List Nat), (∀ y, ys.head? = some y → isCont y = false) → decode (xs ++ ys) = decode xs ++ decode ys := by
  induction xs using bytes_induction with
  | nil => intro ys _; rfl
  | bad b bs hf hb h ih =>
    intro ys hy
    have hb' : first (b :: (bs ++ ys)) = (0xFFFD, 1) := by
      rcases first_cases b (bs ++ ys) with ⟨h, _⟩ | ⟨c, rest, hc, h⟩
      · exact h
      · exfalso
        obtain ⟨b', t, h1, h2, h3, _⟩ := encode1_cont hc
        rcases Nat.lt_or_ge (b :: bs).length (encode1 c).length with hl | hl
        · -- the rest would continue the character
          have : ∃ y, ys.head? = some y ∧ y ∈ t := by
            have h4 : (b :: (bs ++ ys)).drop (b :: bs).length = ys := by
              rw [← List.cons_append, List.drop_left]
            rw [h] at h4
            rw [List.drop_append_of_le_length (by omega)] at h4
            rw [h1] at h4 hl
            simp only [List.length_cons, List.drop_succ_cons] at h4 hl
            have h5 : bs.length < t.length := by omega
            rw [List.drop_eq_getElem_cons h5] at h4
            rw [← h4]
            exact ⟨_, rfl, List.getElem_mem _⟩
          obtain ⟨y, h4, h5⟩ := this
          have := h3 y h5
          rw [hy y h4] at this
          cases this
        · have : ∃ r, b :: bs = encode1 c ++ r := by
            have h4 : (b :: (bs ++ ys)).take (b :: bs).length = b :: bs := by
              rw [← List.cons_append, List.take_left]
            rw [h, List.take_append, List.take_of_length_le hl] at h4
            exact ⟨_, h4.symm⟩
          obtain ⟨r, hr⟩ := this
          rw [hr] at hf
          exact first_ne_fffd hc r hf
    rw [List.cons_append, decode_bad hb', ih ys hy, h]
    rfl
  | char c rest hs h ih =>
    intro ys hy
    rw [List.append_assoc, decode_encode1 hs, ih ys hy, h]
    rfl

theorem decode_ascii_cons {a : Nat} (h : a < 0x80) (bs : List Nat) : decode (a :: bs) = (a : Int) :: decode bs := by
  have hs : Scalar (a : Int) := by unfold Scalar Rune; omega
  have : encode1 (a : Int) = [a] := by
    unfold encode1
    rw [viaUTF8_keep hs]
    simp [h]
  have h2 := decode_encode1 hs bs
  rw [this] at h2
  exact h2

theorem cont_ascii {a : Nat} (h : a < 0x80) : isCont a = false := by
  simp only [isCont, Bool.and_eq_false_iff, decide_eq_false_iff_not]; omega

/-- Bytes are read anew at each ASCII character. -/
theorem decode_ascii (xs : List Nat) {a : Nat} (h : a < 0x80) (ys : List Nat) :
    decode (xs ++ a :: ys) = decode xs ++ (a : Int) :: decode ys := by
  rw [decode_append xs _ (by intro y hy; cases hy; exact cont_ascii h), decode_ascii_cons h]

/-- An ASCII character is there where its byte is. -/
theorem mem_decode {a : Nat} (h : a < 0x80) (bs : List Nat) : (a : Int) ∈ decode bs ↔ a ∈ bs := by
  induction bs using bytes_induction with
  | nil => constructor <;> intro h <;> cases h
  | bad b bs _ hb hd ih =>
    rw [hd, List.mem_cons, List.mem_cons, ih]
    constructor
    · rintro (h' | h')
      · exfalso
        unfold Rune at h'
        omega
      · exact .inr h'
    · rintro (h' | h')
      · omega
      · exact .inr h'
  | char c rest hs hd ih =>
    rw [hd, List.mem_cons, List.mem_append, ih]
    obtain ⟨b, t, h1, h2, h3, h4, h5, h6⟩ := encode1_cont hs
    have : (a : Int) = c ↔ a ∈ encode1 c := by
      rw [h1, List.mem_cons]
      unfold Rune at *
      constructor
      · intro hc
        obtain ⟨_, h8⟩ := h6 (by omega)
        exact .inl (by omega)
      · rintro (hc | hc)
        · rcases Int.lt_or_le c 0x80 with h7 | h7
          · have := (h6 h7).2; omega
          · have := (h5 h7).1; omega
        · have := h3 a hc
          rw [cont_ascii h] at this
          cases this
    rw [this]

/-! ## Lines and definitions -/

theorem byteLines_none : ∀ (xs : List Nat), 10 ∉ xs → UTF8.splitLines xs = [xs]
  | [], _ => rfl
  | b :: bs, h => by
    rw [UTF8.splitLines, byteLines_none bs (fun hc => h (List.mem_cons_of_mem _ hc))]
    simp only
    rw [if_neg (by rintro rfl; exact h List.mem_cons_self)]

theorem byteLines_at : ∀ (xs ys : List Nat), 10 ∉ xs → UTF8.splitLines (xs ++ 10 :: ys) = xs :: UTF8.splitLines ys
  | [], ys, _ => by
    rw [List.nil_append, UTF8.splitLines]
    cases h : UTF8.splitLines ys with
    | nil =>
      cases ys with
      | nil => cases h
      | cons b bs =>
        exfalso
        rw [UTF8.splitLines] at h
        split at h
        · cases h
        · split at h <;> cases h
    | cons l ls => simp
  | b :: bs, ys, h => by
    rw [List.cons_append, UTF8.splitLines, byteLines_at bs ys (fun hc => h (List.mem_cons_of_mem _ hc))]
    simp only
    rw [if_neg (by rintro rfl; exact h List.mem_cons_self)]

theorem runeLines_none : ∀ (xs : List Rune), newline ∉ xs → Grammar.splitLines xs = [xs]
  | [], _ => rfl
  | b :: bs, h => by
    rw [Grammar.splitLines, runeLines_none bs (fun hc => h (List.mem_cons_of_mem _ hc))]
    simp only
    rw [if_neg (by rintro rfl; exact h List.mem_cons_self)]

theorem runeLines_at : ∀ (xs ys : List Rune), newline ∉ xs → Grammar.splitLines (xs ++ newline :: ys) = xs :: Grammar.splitLines ys
  | [], ys, _ => by
    rw [List.nil_append, Grammar.splitLines]
    cases h : Grammar.splitLines ys with
    | nil =>
      cases ys with
      | nil => cases h
      | cons b bs =>
        exfalso
        rw [Grammar.splitLines] at h
        split at h
        · cases h
        · split at h <;> cases h
    | cons l ls => simp
  | b :: bs, ys, h => by
    rw [List.cons_append, Grammar.splitLines, runeLines_at bs ys (fun hc => h (List.mem_cons_of_mem _ hc))]
    simp only
    rw [if_neg (by rintro rfl; exact h List.mem_cons_self)]

/-- The first place of a byte. -/
theorem cut_at (a : Nat) : ∀ (bs : List Nat), a ∈ bs → ∃ xs ys, bs = xs ++ a :: ys ∧ a ∉ xs
  | [], h => by cases h
  | b :: bs, h => by
    by_cases hb : b = a
    · exact ⟨[], bs, by rw [hb]; rfl, by simp⟩
    · rcases List.mem_cons.1 h with h | h
      · exact absurd h.symm hb
      · obtain ⟨xs, ys, h1, h2⟩ := cut_at a bs h
        refine ⟨b :: xs, ys, by rw [h1]; rfl, ?_⟩
        intro hc
        rcases List.mem_cons.1 hc with hc | hc
        · exact hb hc.symm
        · exact h2 hc

/-- The lines of the bytes are the lines of the characters. -/
theorem decode_lines (bs : List Nat) : (UTF8.splitLines bs).map decode = Grammar.splitLines (decode bs) := by
  generalize hn : bs.length = n
  induction n using Nat.strongRecOn generalizing bs with
  | _ n ih =>
    by_cases h : 10 ∈ bs
    · obtain ⟨xs, ys, rfl, hx⟩ := cut_at 10 bs h
      have hx' : newline ∉ decode xs := fun hc => hx ((mem_decode (a := 10) (by decide) xs).1 hc)
      rw [byteLines_at xs ys hx, decode_ascii xs (by decide) ys]
      rw [show ((10 : Nat) : Int) = newline from rfl, runeLines_at _ _ hx', List.map_cons, ih ys.length (by simp at hn; omega) ys rfl]
    · have h' : newline ∉ decode bs := fun hc => h ((mem_decode (a := 10) (by decide) bs).1 hc)
      rw [byteLines_none bs h, runeLines_none _ h']
      rfl

theorem byteEq_none : ∀ (xs : List Nat), 61 ∉ xs → UTF8.splitEq xs = none
  | [], _ => rfl
  | b :: bs, h => by
    rw [UTF8.splitEq, if_neg (by rintro rfl; exact h List.mem_cons_self), byteEq_none bs (fun hc => h (List.mem_cons_of_mem _ hc))]
    rfl

theorem byteEq_at : ∀ (xs ys : List Nat), 61 ∉ xs → UTF8.splitEq (xs ++ 61 :: ys) = some (xs, ys)
  | [], ys, _ => by simp [UTF8.splitEq]
  | b :: bs, ys, h => by
    rw [List.cons_append, UTF8.splitEq, if_neg (by rintro rfl; exact h List.mem_cons_self), byteEq_at bs ys (fun hc => h (List.mem_cons_of_mem _ hc))]
    rfl

theorem runeEq_none : ∀ (xs : List Rune), ch '=' ∉ xs → Grammar.splitEq xs = none
  | [], _ => rfl
  | b :: bs, h => by
    rw [Grammar.splitEq, if_neg (by rintro rfl; exact h List.mem_cons_self), runeEq_none bs (fun hc => h (List.mem_cons_of_mem _ hc))]
    rfl

theorem runeEq_at : ∀ (xs ys : List Rune), ch '=' ∉ xs → Grammar.splitEq (xs ++ ch '=' :: ys) = some (xs, ys)
  | [], ys, _ => by simp [Grammar.splitEq]
  | b :: bs, ys, h => by
    rw [List.cons_append, Grammar.splitEq, if_neg (by rintro rfl; exact h List.mem_cons_self), runeEq_at bs ys (fun hc => h (List.mem_cons_of_mem _ hc))]
    rfl

theorem decode_splitEq (bs : List Nat) : Grammar.splitEq (decode bs) = (UTF8.splitEq bs).map (fun p => (decode p.1, decode p.2)) := by
  by_cases h : 61 ∈ bs
  · obtain ⟨xs, ys, rfl, hx⟩ := cut_at 61 bs h
    have hx' : ch '=' ∉ decode xs := fun hc => hx ((mem_decode (a := 61) (by decide) xs).1 hc)
    rw [byteEq_at xs ys hx, decode_ascii xs (by decide) ys]
    rw [show ((61 : Nat) : Int) = ch '=' from rfl, runeEq_at _ _ hx']
    rfl
  · have h' : ch '=' ∉ decode bs := fun hc => h ((mem_decode (a := 61) (by decide) bs).1 hc)
    rw [byteEq_none bs h, runeEq_none _ h']
    rfl

/-! ## White space -/

theorem decode_trimLeft : ∀ (n : Nat) (bs : List Nat), bs.length ≤ n → decode (trimLeftLoop n bs) = (decode bs).dropWhile isWhiteSpace
  | 0, [], _ => rfl
  | 0, b :: bs, h => by simp at h
  | n + 1, [], _ => rfl
  | n + 1, b :: bs, h => by
    have hk : 1 ≤ (first (b :: bs)).2 := by
      rcases first_cases b bs with ⟨h, _⟩ | ⟨c, rest, hc, h⟩
      · rw [h]; exact Nat.le_refl _
      · rw [h, first_encode hc]; exact encode1_length hc
    rw [trimLeftLoop]
    by_cases hw : isWhiteSpace (first (b :: bs)).1 = true
    · rw [if_pos hw, decode_cons, List.dropWhile_cons, if_pos hw]
      exact decode_trimLeft n _ (by rw [List.length_drop, List.length_cons] at *; omega)
    · rw [if_neg hw, decode_cons, List.dropWhile_cons, if_neg hw]

/-- A last byte that is not part of a character is read by itself. -/
theorem decode_snoc (xs : List Nat) (b : Nat) (hb : 0x80 ≤ b) :
    decode (xs ++ [b]) = decode xs ++ [0xFFFD] ∨ ∃ p c, Scalar c ∧ xs ++ [b] = p ++ encode1 c := by
  have one : decode [b] = [0xFFFD] := by
    rw [decode_cons]
    have : first [b] = (0xFFFD, 1) := by simp only [first]; rw [if_neg (by omega)]
    rw [this]; rfl
  induction xs using bytes_induction with
  | nil => left; rw [List.nil_append, one]; rfl
  | bad x xs hf hx h ih =>
    rcases first_cases x (xs ++ [b]) with ⟨h', _⟩ | ⟨c, rest, hc, h'⟩
    · rcases ih with ih | ⟨p, c, hc, ih⟩
      · left
        rw [List.cons_append, decode_bad h', ih, h]
        rfl
      · right
        exact ⟨x :: p, c, hc, by rw [List.cons_append, ih]; rfl⟩
    · right
      rcases List.eq_nil_or_concat rest with rfl | ⟨r, y, rfl⟩
      · exact ⟨[], c, hc, by simpa using h'⟩
      · exfalso
        rw [List.concat_eq_append, ← List.cons_append, ← List.append_assoc] at h'
        have := (List.append_inj' h' rfl).1
        rw [this] at hf
        exact first_ne_fffd hc r hf
  | char c rest hs h ih =>
    rcases ih with ih | ⟨p, d, hd, ih⟩
    · left
      rw [List.append_assoc, decode_encode1 hs, ih, h]
      rfl
    · right
      exact ⟨encode1 c ++ p, d, hd, by rw [List.append_assoc, ih, List.append_assoc]⟩

/-- Going back from the end of a character. -/
theorem last_encode {c : Rune} (h : Scalar c) (p : List Nat) : last (p ++ encode1 c).reverse = (c, (encode1 c).length) := by
  have nc : ∀ b : Nat, 0xC0 ≤ b → isCont b = false := by
    intro b hb; simp only [isCont, Bool.and_eq_false_iff, decide_eq_false_iff_not]; omega
  have cn : ∀ b : Nat, isCont b = true → ¬ b < 0x80 := by
    intro b hb; simp only [isCont, Bool.and_eq_true, decide_eq_true_eq] at hb; omega
  have hf := first_encode h []
  rw [List.append_nil] at hf
  rcases encode1_shape h with ⟨n, rfl, h1, h2⟩ | ⟨n, b0, b1, rfl, h1, h2, h3, h4, h5, h6, h7⟩ |
    ⟨n, b0, b1, b2, rfl, h1, h2, h3, h4, h5, h6, h7, h8⟩ | ⟨n, b0, b1, b2, b3, rfl, h1, h2, h3, h4, h5, h6, h7, h8, h9⟩
  · rw [h2]; simp [last, h1]
  · rw [h3] at hf ⊢
    have hb : backTo 3 (b0 :: p.reverse) [b1] = (p.reverse, [b0, b1]) := by simp [backTo, nc b0 (by omega)]
    rw [List.reverse_append]
    simp only [List.reverse_cons, List.reverse_nil, List.nil_append, List.cons_append, last]
    rw [if_neg (cn _ h6), hb]
    simp only [hf, if_true]
  · rw [h2] at hf ⊢
    have hb : backTo 3 (b1 :: b0 :: p.reverse) [b2] = (p.reverse, [b0, b1, b2]) := by simp [backTo, nc b0 (by omega), h6]
    rw [List.reverse_append]
    simp only [List.reverse_cons, List.reverse_nil, List.nil_append, List.cons_append, last]
    rw [if_neg (cn _ h7), hb]
    simp only [hf, if_true]
  · rw [h2] at hf ⊢
    have hb : backTo 3 (b2 :: b1 :: b0 :: p.reverse) [b3] = (p.reverse, [b0, b1, b2, b3]) := by simp [backTo, nc b0 (by omega), h6, h7]
    rw [List.reverse_append]
    simp only [List.reverse_cons, List.reverse_nil, List.nil_append, List.cons_append, last]
    rw [if_neg (cn _ h8), hb]
    simp only [hf, if_true]

theorem backTo_append : ∀ (n : Nat) (rev acc : List Nat), (backTo n rev acc).1.reverse ++ (backTo n rev acc).2 = rev.reverse ++ acc
  | 0, rev, acc => rfl
  | n + 1, [], acc => rfl
  | n + 1, b :: rev, acc => by
    rw [backTo]
    split
    · rw [backTo_append n rev (b :: acc)]; simp
    · simp

/-- The last character, read backwards, is the last character read forwards. -/
theorem decode_last (b : Nat) (rev : List Nat) :
    1 ≤ (last (b :: rev)).2 ∧ decode (b :: rev).reverse = decode ((b :: rev).drop (last (b :: rev)).2).reverse ++ [(last (b :: rev)).1] := by
  by_cases hb : b < 0x80
  · have hl : last (b :: rev) = ((b : Int), 1) := by simp [last, hb]
    rw [hl]
    refine ⟨Nat.le_refl _, ?_⟩
    rw [List.reverse_cons]
    exact decode_ascii rev.reverse hb []
  · rcases decode_snoc rev.reverse b (by omega) with h | ⟨p, c, hc, h⟩
    · by_cases hp : ∃ p c, Scalar c ∧ rev.reverse ++ [b] = p ++ encode1 c
      · obtain ⟨p, c, hc, hp⟩ := hp
        have hl := last_encode hc p
        rw [← hp, ← List.reverse_cons, List.reverse_reverse] at hl
        rw [hl]
        refine ⟨encode1_length hc, ?_⟩
        have hr : b :: rev = (encode1 c).reverse ++ p.reverse := by
          rw [← List.reverse_append, ← hp]; simp
        rw [List.reverse_cons, hp, hr]
        simp only
        rw [show (encode1 c).length = (encode1 c).reverse.length by simp, List.drop_left, List.reverse_reverse]
        obtain ⟨x, t, h1, h2, _⟩ := encode1_cont hc
        rw [decode_append p _ (by intro y hy; rw [h1] at hy; cases hy; exact h2)]
        have := decode_encode1 hc []
        rw [List.append_nil] at this
        rw [this, decode_nil]
      · have hl : last (b :: rev) = (0xFFFD, 1) := by
          simp only [last]
          rw [if_neg hb]
          split
          · rename_i hfull
            generalize ht : (backTo 3 rev [b]).2 = tail at *
            have happ := backTo_append 3 rev [b]
            rw [ht] at happ
            cases tail with
            | nil => 
              exfalso
              have : ∀ (n : Nat) (rev acc : List Nat), acc ≠ [] → (backTo n rev acc).2 ≠ [] := by
                intro n
                induction n with
                | zero => intro rev acc h; exact h
                | succ n ih =>
                  intro rev acc h
                  cases rev with
                  | nil => exact h
                  | cons x rev =>
                    rw [backTo]
                    split
                    · exact ih _ _ (by simp)
                    · simp
              exact this 3 rev [b] (by simp) ht
            | cons x tl =>
              rcases first_cases x tl with ⟨h1, _⟩ | ⟨c, rest, hc, h1⟩
              · exact h1
              · exfalso
                rw [h1, first_encode hc] at hfull
                simp only [List.length_append] at hfull
                have : rest = [] := List.eq_nil_of_length_eq_zero (by omega)
                rw [h1, this, List.append_nil] at happ
                exact hp ⟨_, c, hc, happ.symm⟩
          · rfl
        rw [hl]
        refine ⟨Nat.le_refl _, ?_⟩
        rw [List.reverse_cons, h]
        rfl
    · have hl := last_encode hc p
      rw [← h, ← List.reverse_cons, List.reverse_reverse] at hl
      rw [hl]
      refine ⟨encode1_length hc, ?_⟩
      have hr : b :: rev = (encode1 c).reverse ++ p.reverse := by
        rw [← List.reverse_append, ← h]; simp
      rw [List.reverse_cons, h, hr]
      simp only
      rw [show (encode1 c).length = (encode1 c).reverse.length by simp, List.drop_left, List.reverse_reverse]
      obtain ⟨x, t, h1, h2, _⟩ := encode1_cont hc
      rw [decode_append p _ (by intro y hy; rw [h1] at hy; cases hy; exact h2)]
      have := decode_encode1 hc []
      rw [List.append_nil] at this
      rw [this, decode_nil]

theorem decode_trimRight : ∀ (n : Nat) (rev : List Nat), rev.length ≤ n →
    decode (trimRightLoop n rev).reverse = ((decode rev.reverse).reverse.dropWhile isWhiteSpace).reverse
  | 0, [], _ => rfl
  | 0, b :: bs, h => by simp at h
  | n + 1, [], _ => rfl
  | n + 1, b :: rev, h => by
    obtain ⟨h1, h2⟩ := decode_last b rev
    rw [trimRightLoop]
    by_cases hw : isWhiteSpace (last (b :: rev)).1 = true
    · rw [if_pos hw, h2, List.reverse_append]
      simp only [List.reverse_cons, List.reverse_nil, List.nil_append, List.cons_append]
      rw [List.dropWhile_cons, if_pos hw]
      exact decode_trimRight n _ (by rw [List.length_drop, List.length_cons] at *; omega)
    · rw [if_neg hw, h2, List.reverse_append]
      simp only [List.reverse_cons, List.reverse_nil, List.nil_append, List.cons_append]
      rw [List.dropWhile_cons, if_neg hw]
      rw [List.reverse_cons, List.reverse_reverse, ← h2]

/-- White space around bytes is white space around characters. -/
theorem decode_trim (bs : List Nat) : decode (UTF8.trimSpace bs) = Xbnf.trimSpace (decode bs) := by
  unfold UTF8.trimSpace
  simp only
  rw [decode_trimRight _ _ (by simp), List.reverse_reverse, decode_trimLeft _ _ (Nat.le_refl _)]
  rfl

/-! ## Names -/

theorem ascii_of_decode {name : List Nat} : (∀ c ∈ decode name, c < 0x80) → name = (decode name).map Int.toNat := by
  induction name using bytes_induction with
  | nil => intro _; rfl
  | bad b bs _ _ h _ =>
    intro hc
    rw [h] at hc
    have := hc _ List.mem_cons_self
    exact absurd this (by decide)
  | char c rest hs h ih =>
    intro hc
    rw [h] at hc
    obtain ⟨b, t, h1, _, _, _, _, h6⟩ := encode1_cont hs
    have hlt := hc _ List.mem_cons_self
    obtain ⟨rfl, hb⟩ := h6 hlt
    have := ih (fun d hd => hc d (List.mem_cons_of_mem _ hd))
    rw [h1] at h ⊢
    rw [h, List.map_cons, ← this, hb]
    rfl

theorem ascii_scalar {c : Rune} (h0 : 0 ≤ c) (h : c < 0x80) : Scalar c := by
  unfold Scalar Rune at *; omega

theorem encode_ascii : ∀ (l : List Rune), (∀ c ∈ l, 0 ≤ c ∧ c < 0x80) → encode l = l.map Int.toNat
  | [], _ => rfl
  | c :: l, h => by
    obtain ⟨h0, h1⟩ := h c List.mem_cons_self
    obtain ⟨b, t, e1, _, _, _, _, h6⟩ := encode1_cont (ascii_scalar h0 h1)
    obtain ⟨rfl, hb⟩ := h6 h1
    show encode1 c ++ encode l = _
    rw [e1, encode_ascii l (fun d hd => h d (List.mem_cons_of_mem _ hd)), hb]
    rfl

theorem nameChar_ascii {c : Rune} (h : isNameChar c = true) : 0 ≤ c ∧ c < 0x80 := by
  simp only [isNameChar, isLetter, isDigit, Bool.or_eq_true, Bool.and_eq_true, decide_eq_true_eq, beq_iff_eq] at h
  rcases h with ((⟨h1, h2⟩ | ⟨h1, h2⟩) | rfl) | ⟨h1, h2⟩
  · exact ⟨Int.le_trans (by decide) h1, Int.lt_of_le_of_lt h2 (by decide)⟩
  · exact ⟨Int.le_trans (by decide) h1, Int.lt_of_le_of_lt h2 (by decide)⟩
  · decide
  · exact ⟨Int.le_trans (by decide) h1, Int.lt_of_le_of_lt h2 (by decide)⟩

theorem letter_nameChar {c : Rune} (h : isLetter c = true) : isNameChar c = true := by
  simp [isNameChar, h]

/-- A name is accepted as bytes if and only if it is accepted as characters. -/
theorem valid_bytes (name : List Nat) : UTF8.validName name = Xbnf.validName (decode name) := by
  cases name with
  | nil => rfl
  | cons b bs =>
    rcases Nat.lt_or_ge b 0x80 with hb | hb
    · rw [decode_ascii_cons hb]
      rfl
    · have hl : isLetter (b : Int) = false := by
        cases hc : isLetter (b : Int) with
        | false => rfl
        | true =>
          have := (nameChar_ascii (letter_nameChar hc)).2
          unfold Rune at this
          omega
      have hc : isLetter (first (b :: bs)).1 = false := by
        cases hc : isLetter (first (b :: bs)).1 with
        | false => rfl
        | true =>
          have hlt := nameChar_ascii (letter_nameChar hc)
          rcases first_cases b bs with ⟨h, _⟩ | ⟨c, rest, hs, h⟩
          · rw [h] at hlt; exact absurd hlt.2 (by decide)
          · rw [h, first_encode hs] at hlt
            obtain ⟨b', t, h1, _, _, _, _, h6⟩ := encode1_cont hs
            obtain ⟨rfl, hb'⟩ := h6 hlt.2
            rw [h1] at h
            simp only [List.cons_append, List.cons.injEq] at h
            unfold Rune at *
            omega
      rw [decode_cons]
      simp [UTF8.validName, Xbnf.validName, hl, hc]

theorem validName_ascii {name : Name} (h : Xbnf.validName name = true) : ∀ c ∈ name, 0 ≤ c ∧ c < 0x80 := by
  cases name with
  | nil => intro c hc; cases hc
  | cons d cs =>
    simp only [Xbnf.validName, Bool.and_eq_true, List.all_eq_true] at h
    intro c hc
    rcases List.mem_cons.1 hc with rfl | hc
    · exact nameChar_ascii (letter_nameChar h.1)
    · exact nameChar_ascii (h.2 c hc)

theorem find_eq {α : Type} {p q : α → Bool} (l : List α) (h : ∀ x ∈ l, p x = q x) : l.find? p = l.find? q := by
  induction l with
  | nil => rfl
  | cons x l ih =>
    rw [List.find?_cons, List.find?_cons, h x List.mem_cons_self, ih (fun y hy => h y (List.mem_cons_of_mem _ hy))]

theorem ruleName_ascii {name : Name} (h : RuleName name) : ∀ c ∈ name, 0 ≤ c ∧ c < 0x80 := by
  have hl : ∀ c : Rune, Letter c → 0 ≤ c ∧ c < 0x80 := by
    rintro c (⟨h1, h2⟩ | ⟨h1, h2⟩) <;> exact ⟨Int.le_trans (by decide) h1, Int.lt_of_le_of_lt h2 (by decide)⟩
  obtain ⟨d, ds, rfl, h1, h2⟩ := h
  intro c hc
  rcases List.mem_cons.1 hc with rfl | hc
  · exact hl _ h1
  · rcases h2 c hc with h | ⟨h1, h2⟩ | rfl
    · exact hl _ h
    · exact ⟨Int.le_trans (by decide) h1, Int.lt_of_le_of_lt h2 (by decide)⟩
    · decide

theorem keep_ascii {l : List Rune} (h : ∀ c ∈ l.map viaUTF8, 0 ≤ c ∧ c < 0x80) : l.map viaUTF8 = l := by
  have hk : ∀ c ∈ l, viaUTF8 c = c := by
    intro c hc
    have hlt := (h (viaUTF8 c) (List.mem_map_of_mem hc)).2
    unfold viaUTF8 at hlt ⊢
    split
    · rfl
    · rename_i hx
      rw [if_neg hx] at hlt
      exact absurd hlt (by decide)
  exact (List.map_congr_left hk).trans (List.map_id _)

/-- A rule is found by the bytes of its name if and only if it is found by their characters: for
names that are accepted, or where all rules have names that are accepted. -/
theorem getRecord_bytes {g : Grammar} {name : List Nat}
    (h : (∀ c ∈ decode name, 0 ≤ c ∧ c < 0x80) ∨ ∀ r ∈ g.records, ∀ c ∈ r.name, 0 ≤ c ∧ c < 0x80) :
    g.getRecordBytes name = g.getRecord (decode name) := by
  unfold Grammar.getRecordBytes Grammar.getRecord
  apply find_eq
  intro r hr
  rw [Bool.eq_iff_iff, beq_iff_eq, beq_iff_eq]
  constructor
  · intro he
    have hd : decode name = r.name.map viaUTF8 := by rw [← he, decode_encode]
    have hm : r.name.map viaUTF8 = r.name := by
      rcases h with h | h
      · exact keep_ascii (hd ▸ h)
      · have hk : ∀ c ∈ r.name, viaUTF8 c = c := fun c hc => viaUTF8_keep (ascii_scalar (h r hr c hc).1 (h r hr c hc).2)
        exact (List.map_congr_left hk).trans (List.map_id _)
    rw [hd, hm]
  · intro he
    have ha : ∀ c ∈ decode name, 0 ≤ c ∧ c < 0x80 := by
      rcases h with h | h
      · exact h
      · rw [← he]; exact h r hr
    rw [he, encode_ascii _ ha, ← ascii_of_decode (fun c hc => (ha c hc).2)]

/-! ## The definitions -/

theorem decode_empty (bs : List Nat) : bs.length = 0 ↔ (decode bs).length = 0 := by
  cases bs with
  | nil => simp [decode_nil]
  | cons b bs => rw [decode_cons]; simp

/-- The first character is an ASCII character if and only if its byte is there. -/
theorem decode_head (b : Nat) (bs : List Nat) : (∃ c l, b < 0x80 ∧ decode (b :: bs) = c :: l ∧ c = (b : Int) ∧ l = decode bs) ∨
    (0x80 ≤ b ∧ ∃ c l, decode (b :: bs) = c :: l ∧ 0x80 ≤ c) := by
  rcases Nat.lt_or_ge b 0x80 with hb | hb
  · exact .inl ⟨_, _, hb, decode_ascii_cons hb bs, rfl, rfl⟩
  · right
    refine ⟨hb, _, _, decode_cons b bs, ?_⟩
    rcases first_cases b bs with ⟨h, _⟩ | ⟨c, rest, hs, h⟩
    · rw [h]; decide
    · rw [h, first_encode hs]
      apply Classical.byContradiction
      intro hlt
      obtain ⟨b', t, h1, _, _, _, _, h6⟩ := encode1_cont hs
      obtain ⟨rfl, hb'⟩ := h6 (Int.not_le.1 hlt)
      rw [h1] at h
      simp only [List.cons_append, List.cons.injEq] at h
      unfold Rune at *
      omega

theorem decode_comment (bs : List Nat) : bs.take 2 = [47, 47] ↔ (decode bs).take 2 = [ch '/', ch '/'] := by
  have e : ch '/' = ((47 : Nat) : Int) := by decide
  rw [e]
  cases bs with
  | nil => simp [decode_nil]
  | cons b bs =>
    rcases decode_head b bs with ⟨c, l, _, h, rfl, rfl⟩ | ⟨hb, c, l, h, hc⟩
    · rw [h]
      cases bs with
      | nil => simp [decode_nil]
      | cons b2 bs =>
        rcases decode_head b2 bs with ⟨c, l, _, h, rfl, rfl⟩ | ⟨hb, c, l, h, hc⟩
        · rw [h]
          simp only [List.take_succ_cons, List.take_zero, List.cons.injEq, and_true]
          unfold Rune at *
          omega
        · rw [h]
          simp only [List.take_succ_cons, List.take_zero, List.cons.injEq, and_true]
          unfold Rune at *
          omega
    · rw [h]
      simp only [List.take_succ_cons, List.cons.injEq]
      unfold Rune at *
      constructor <;> rintro ⟨h1, _⟩ <;> omega

theorem parseRule_bytes (fuel : Nat) (name text : List Nat) (g : Grammar) :
    g.parseRuleBytes fuel name text = g.parseRule fuel (decode name) (decode text) := by
  unfold Grammar.parseRuleBytes Grammar.parseRule
  rw [valid_bytes, decode_trim]
  split
  · rfl
  · rename_i h
    rw [getRecord_bytes (.inl (validName_ascii (by simpa using h)))]
    rfl

theorem addRule_bytes (fuel : Nat) (text : List Nat) (g : Grammar) :
    g.addRuleBytes fuel text = g.addRule fuel (decode text) := by
  unfold Grammar.addRuleBytes Grammar.addRule
  rw [decode_splitEq]
  cases UTF8.splitEq text with
  | none => rfl
  | some p =>
    show g.parseRuleBytes _ _ _ = g.parseRule _ _ _
    rw [parseRule_bytes, decode_trim, decode_trim]

theorem linesLoop_bytes (fuel : Nat) : ∀ (ls : List (List Nat)) (i : Nat) (g : Grammar),
    g.linesLoopBytes fuel i ls = g.linesLoop fuel i (ls.map decode)
  | [], _, _ => rfl
  | l :: ls, i, g => by
    unfold Grammar.linesLoopBytes
    rw [List.map_cons]
    unfold Grammar.linesLoop
    simp only
    rw [← decode_trim]
    by_cases hc : (UTF8.trimSpace l).length = 0 ∨ (UTF8.trimSpace l).take 2 = [47, 47]
    · rw [if_pos hc, if_pos (by rwa [← decode_empty, ← decode_comment]), linesLoop_bytes fuel ls]
    · rw [if_neg hc, if_neg (by rwa [← decode_empty, ← decode_comment]), decode_splitEq]
      cases UTF8.splitEq (UTF8.trimSpace l) with
      | none => rfl
      | some p =>
        simp only [Option.map_some]
        rw [parseRule_bytes, decode_trim, decode_trim]
        cases Grammar.parseRule fuel (Xbnf.trimSpace (decode p.1)) (Xbnf.trimSpace (decode p.2)) g with
        | oof => rfl
        | err e g => rfl
        | ok r g => exact linesLoop_bytes fuel ls _ _

/-! ## The standard -/

theorem standsFor_scalar {u : List Nat} {c : Rune} (h : StandsFor u c) : Scalar c := by
  cases h <;> unfold Scalar Rune <;> omega

theorem standsFor_encode {u : List Nat} {c : Rune} (h : StandsFor u c) : u = encode1 c := by
  have hs := viaUTF8_keep (standsFor_scalar h)
  unfold encode1
  rw [hs]
  cases h with
  | one h => simp [h]
  | two hx hy h =>
    rename_i x y
    simp only [Int.toNat_natCast]
    rw [if_neg (by omega), if_pos (by omega)]
    simp only [List.cons.injEq, and_true]
    omega
  | three hx hy hz h hs =>
    rename_i x y z
    simp only [Int.toNat_natCast]
    rw [if_neg (by omega), if_neg (by omega), if_pos (by omega)]
    simp only [List.cons.injEq, and_true]
    omega
  | four hw hx hy hz h hm =>
    rename_i w x y z
    simp only [Int.toNat_natCast]
    rw [if_neg (by omega), if_neg (by omega), if_neg (by omega)]
    simp only [List.cons.injEq, and_true]
    omega

theorem encode_standsFor {c : Rune} (h : Scalar c) : StandsFor (encode1 c) c := by
  unfold Rune at *
  have hv := viaUTF8_keep h
  unfold Scalar Rune at h
  obtain ⟨n, rfl⟩ : ∃ n : Nat, c = n := ⟨c.toNat, by omega⟩
  unfold encode1
  rw [hv]
  simp only [Int.toNat_natCast]
  split
  · exact .one (by assumption)
  · split
    · have := StandsFor.two (x := n / 64) (y := n % 64) (by omega) (by omega) (by omega)
      rwa [show n / 64 * 64 + n % 64 = n by omega] at this
    · split
      · have e : (n / 4096 * 64 + n / 64 % 64) * 64 + n % 64 = n := by omega
        have := StandsFor.three (x := n / 4096) (y := n / 64 % 64) (z := n % 64) (by omega) (by omega) (by omega) (by omega) (by omega)
        rwa [e] at this
      · have e : ((n / 262144 * 64 + n / 4096 % 64) * 64 + n / 64 % 64) * 64 + n % 64 = n := by omega
        have := StandsFor.four (w := n / 262144) (x := n / 4096 % 64) (y := n / 64 % 64) (z := n % 64) (by omega) (by omega) (by omega) (by omega)
          (by omega) (by omega)
        rwa [e] at this

/-- **C62**: bytes are read as the standard says, and in no other way. -/
theorem C62_read (bs : List Nat) (l : List Rune) : ReadAs bs l ↔ l = decode bs := by
  constructor
  · intro h
    induction h with
    | done => rfl
    | char h _ ih => rw [standsFor_encode h, decode_encode1 (standsFor_scalar h), ih]
    | @bad b bs l h _ ih =>
      rcases first_cases b bs with ⟨hf, _⟩ | ⟨c, rest, hs, he⟩
      · rw [decode_bad hf, ih]
      · exact absurd (encode_standsFor hs) (h _ _ _ he)
  · rintro rfl
    induction bs using bytes_induction with
    | nil => exact .done
    | bad b bs hf _ hd ih =>
      rw [hd]
      refine .bad ?_ ih
      intro u rest c he hc
      rw [he, standsFor_encode hc] at hf
      exact first_ne_fffd (standsFor_scalar hc) _ hf
    | char c rest hs hd ih => rw [hd]; exact .char (encode_standsFor hs) ih

/-- **C62**: a text written as bytes is read back as it was, and so every list of characters is
what some bytes are read as. -/
theorem C62_write {l : List Rune} (h : ∀ c ∈ l, Scalar c) : ReadAs (encode l) l := by
  rw [C62_read, decode_encode]
  exact ((List.map_congr_left (fun c hc => viaUTF8_keep (h c hc))).trans (List.map_id _)).symm

/-- **C62**: well-formed bytes that are read and written again are the same bytes. -/
theorem C62_bytes {bs : List Nat} (h : WellFormedBytes bs) : encode (decode bs) = bs := by
  induction h with
  | done => rfl
  | @char u rest c h _ ih =>
    rw [standsFor_encode h, decode_encode1 (standsFor_scalar h)]
    show encode1 c ++ encode (decode rest) = _
    rw [ih]

/-- **C62**: whatever the bytes are, every character is one that a Go string can hold; in
particular none is the end-of-file character, and the texts of all other theorems are valid. -/
theorem C62_valid (bs : List Nat) : Valid (decode bs) ∧ ∀ c ∈ decode bs, Scalar c := by
  refine ⟨?_, decode_scalar bs⟩
  intro c hc h0
  have := decode_scalar bs c hc
  subst h0
  revert this
  unfold Scalar
  decide

/-- **C62**: a grammar given as bytes is the grammar given by the characters the bytes are read as:
splitting, trimming, comparing and looking up bytes, as the code does, gives what the same
operations give on characters. -/
theorem C62_grammar {bs : List Nat} {l : List Rune} (h : ReadAs bs l) (fuel : Nat) :
    Grammar.fromBytes fuel bs = Grammar.fromString fuel l := by
  rw [(C62_read _ _).1 h]
  unfold Grammar.fromBytes Grammar.fromString
  rw [linesLoop_bytes, decode_lines]
  rfl

/-- **C62**: adding one rule, too. -/
theorem C62_addRule {bs : List Nat} {l : List Rune} (h : ReadAs bs l) (fuel : Nat) (g : Grammar) :
    g.addRuleBytes fuel bs = g.addRule fuel l := by
  rw [(C62_read _ _).1 h, addRule_bytes]

/-- **C62**: a rule is looked up by the characters of its name, in every grammar that can be made;
what bytes are asked for does not matter otherwise. -/
theorem C62_lookup {g : Grammar} (hg : Reachable g) {name : List Nat} {n : Name} (h : ReadAs name n) :
    g.getRecordBytes name = g.getRecord n := by
  rw [(C62_read _ _).1 h]
  exact getRecord_bytes (.inr (fun r hr => ruleName_ascii (reachable_names hg r hr).1))

/-- **C62**: `EvalRule` and `EvalEmbed` on bytes are those on characters. -/
theorem C62_eval {g : Grammar} (hg : Reachable g) {name sample : List Nat} {n : Name} {l : List Rune}
    (hn : ReadAs name n) (hl : ReadAs sample l) (fuel : Nat) :
    g.evalRuleBytes fuel name sample = g.evalRule fuel n l ∧
    g.evalEmbedBytes fuel name sample = g.evalEmbed fuel n l := by
  unfold Grammar.evalRuleBytes Grammar.evalRule Grammar.evalEmbedBytes Grammar.evalEmbed
  rw [C62_lookup hg hn, (C62_read _ _).1 hn, (C62_read _ _).1 hl]
  exact ⟨rfl, rfl⟩

/-! ## Printing -/

theorem encode1_via (c : Rune) : encode1 c = encode1 (viaUTF8 c) := by
  unfold encode1; rw [viaUTF8_keep (viaUTF8_scalar c)]

theorem encode_cons (c : Rune) (l : List Rune) : encode (c :: l) = encode1 c ++ encode l := rfl

theorem encode_append (l m : List Rune) : encode (l ++ m) = encode l ++ encode m := by
  unfold encode; rw [List.map_append, List.flatten_append]

theorem replace_append (a : Nat) (new xs ys : List Nat) : replaceAll a new (xs ++ ys) = replaceAll a new xs ++ replaceAll a new ys := by
  unfold replaceAll; rw [List.map_append, List.flatten_append]

theorem replace_none {a : Nat} {new : List Nat} : ∀ {xs : List Nat}, a ∉ xs → replaceAll a new xs = xs
  | [], _ => rfl
  | x :: xs, h => by
    rw [show x :: xs = [x] ++ xs from rfl, replace_append, replace_none (xs := xs) (fun hc => h (List.mem_cons_of_mem _ hc))]
    simp [replaceAll, show x ≠ a from fun e => h (e ▸ List.mem_cons_self)]

/-- The byte of an ASCII character is in no other character. -/
theorem encode1_mem {a : Nat} (ha : a < 0x80) {c : Rune} (h : a ∈ encode1 c) : c = (a : Int) := by
  rw [encode1_via] at h
  obtain ⟨b, t, h1, _, h3, _, h5, h6⟩ := encode1_cont (viaUTF8_scalar c)
  have hv : viaUTF8 c < 0x80 := by
    apply Classical.byContradiction
    intro hn
    have hn := Int.not_lt.1 hn
    rw [h1] at h
    rcases List.mem_cons.1 h with rfl | h
    · exact absurd ha (by have := (h5 hn).1; omega)
    · have := h3 a h
      simp only [isCont, Bool.and_eq_true, decide_eq_true_eq] at this
      omega
  obtain ⟨rfl, hb⟩ := h6 hv
  rw [h1] at h
  have hab : a = b := by simpa using h
  subst hab
  unfold viaUTF8 at hb hv
  split at hb
  · exact hb
  · rename_i hx
    rw [if_neg hx] at hv
    exact absurd hv (by decide)

/-- **C62**: what the printers do to the lines of a text (`strings.ReplaceAll` on bytes) is what they
do to the characters. -/
theorem C62_indent (pre l : List Rune) : replaceAll 10 (10 :: encode pre) (encode l) = encode (indent pre l) := by
  induction l with
  | nil => rfl
  | cons c l ih =>
    rw [encode_cons, replace_append, ih, show indent pre (c :: l) =
      if c = newline then newline :: pre ++ indent pre l else c :: indent pre l from rfl]
    split
    · rename_i h
      subst h
      rw [show encode1 newline = [10] by decide, show newline :: pre ++ indent pre l = [newline] ++ (pre ++ indent pre l) from rfl,
        encode_append, encode_append, show encode [newline] = [10] by decide]
      simp [replaceAll]
    · rename_i h
      rw [replace_none (fun hc => h (encode1_mem (by decide) hc)), encode_cons]

/-! ## Cases -/

/-- "é=" read: two bytes make one character. -/
example : ReadAs [0xC3, 0xA9, 0x3D] [0xE9, 0x3D] := (C62_read _ _).2 (by decide)

/-- Overlong forms, surrogates and what is cut off are read byte by byte. -/
example : ReadAs [0xC0, 0x80] [0xFFFD, 0xFFFD] ∧ ReadAs [0xED, 0xA0, 0x80] [0xFFFD, 0xFFFD, 0xFFFD] ∧ ReadAs [0xE2, 0x80, 0x41] [0xFFFD, 0xFFFD, 0x41] :=
  ⟨(C62_read _ _).2 (by decide), (C62_read _ _).2 (by decide), (C62_read _ _).2 (by decide)⟩

/-- The greatest character. -/
example : ReadAs [0xF4, 0x8F, 0xBF, 0xBF] [0x10FFFF] ∧ ReadAs [0xF4, 0x90, 0x80, 0x80] [0xFFFD, 0xFFFD, 0xFFFD, 0xFFFD] :=
  ⟨(C62_read _ _).2 (by decide), (C62_read _ _).2 (by decide)⟩

/-- `C62_write` on "aé€😀". -/
example : ReadAs (encode [0x61, 0xE9, 0x20AC, 0x1F600]) [0x61, 0xE9, 0x20AC, 0x1F600] :=
  C62_write (by unfold Scalar; decide)

example : encode [0x61, 0xE9, 0x20AC, 0x1F600] = [0x61, 0xC3, 0xA9, 0xE2, 0x82, 0xAC, 0xF0, 0x9F, 0x98, 0x80] := by decide

/-- `C62_bytes` on "é=". -/
example : WellFormedBytes [0xC3, 0xA9, 0x3D] :=
  .char (u := [0xC3, 0xA9]) (.two (x := 3) (y := 0x29) (by decide) (by decide) (by decide))
    (.char (u := [0x3D]) (.one (n := 0x3D) (by decide)) .done)

/-- `C62_bytes` needs its hypothesis: a byte that begins no character does not come back. -/
theorem C62_bytes_counterexample : encode (decode [0xFF]) = [0xEF, 0xBF, 0xBD] := by decide

/-- White space of several bytes (U+0085, U+2003) is trimmed at both ends; a byte of it alone is not. -/
example : UTF8.trimSpace [0xC2, 0x85, 0x61, 0xE2, 0x80, 0x83] = [0x61] ∧ UTF8.trimSpace [0x85, 0x61, 0xE2, 0x80] = [0x85, 0x61, 0xE2, 0x80] := by
  decide

/-- A grammar of bytes: `a = 'é'`, between white space of two bytes. -/
def bytesGrammar : List Nat := [0xC2, 0x85, 0x61, 0x3D, 0x27, 0xC3, 0xA9, 0x27, 0xC2, 0x85, 0x0A]

example : ReadAs bytesGrammar (decode bytesGrammar) ∧
    (match Grammar.fromBytes 20 bytesGrammar with
      | .ok g _ => g.records.map (·.name) == [runes "a"] && (g.evalRuleBytes 20 [0x61] [0xC3, 0xA9] matches .ok { node := some _, .. })
      | _ => false) = true := by
  refine ⟨(C62_read _ _).2 rfl, ?_⟩
  decide +kernel

end Xbnf.Props
