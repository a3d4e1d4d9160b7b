import Verif.Props.Levels
/-
C53: the text of a node.

Full statement: the text of a node is the characters of its leaves in order, with one space between
the texts of two neighbours that are not both sticky, unless there is white space already or the node
is a block, and the text of an AST is made of its nodes in the same way.  The last part is false
(`C53_ast_counterexample`): nothing separates the nodes of an AST.
-/
namespace Xbnf.Props
open Spec

theorem textLoop_append (b : Bool) (as bs : List Node) : ∀ acc ps,
    textLoop b acc ps (as ++ bs) = textLoop b (textLoop b acc ps as) ((as.getLast?.map Node.sticky).getD ps) bs := by
  induction as with
  | nil => intro acc ps; simp [textLoop]
  | cons n as ih =>
    intro acc ps
    rw [List.cons_append, textLoop, textLoop, ih]
    congr 1
    cases h : as.getLast? with
    | none => rw [List.getLast?_eq_none_iff] at h; subst h; rfl
    | some x => rw [List.getLast?_cons, h]; rfl

theorem textLoop_prefix (b : Bool) (ns : List Node) : ∀ acc ps, ∃ r, textLoop b acc ps ns = acc ++ r := by
  induction ns with
  | nil => intro acc ps; exact ⟨[], by simp [textLoop]⟩
  | cons n ns ih =>
    intro acc ps
    rw [textLoop]
    obtain ⟨r, hr⟩ := ih (joinText b acc ps n.text n.sticky) n.sticky
    rcases joinText_cases b acc ps n.text n.sticky with h | h
    · exact ⟨n.text ++ r, by rw [hr, h, List.append_assoc]⟩
    · exact ⟨[32] ++ n.text ++ r, by rw [hr, h]; simp only [List.append_assoc]⟩

theorem textLoop_empty (b : Bool) (ns : List Node) (h : ∀ n ∈ ns, n.text = []) : ∀ acc ps, textLoop b acc ps ns = acc := by
  induction ns with
  | nil => intro acc ps; rfl
  | cons n ns ih =>
    intro acc ps
    rw [textLoop, h n List.mem_cons_self, ih (fun m hm => h m (List.mem_cons_of_mem _ hm))]
    simp [joinText]

/-- The text of a node is the characters of its leaves in order, and spaces. -/
theorem C53_characters (n : Node) : Spaced (yield n) n.text := text_spaced n

/-- The text of a leaf is its characters. -/
theorem C53_leaf {n : Node} (h : n.chars ≠ []) (he : n.chars ≠ [EOFChar]) : n.text = n.chars := by
  rw [text_eq, if_neg h, if_neg he]

/-- Nothing is put between the parts of a block. -/
theorem C53_block {n : Node} (h : n.chars = []) (hb : n.ruleType = .block) : n.text = (n.children.map Node.text).flatten := by
  rw [text_eq, if_pos h, hb]
  have := textLoop_block n.children [] false
  simpa using this

/-- Nothing is put between sticky nodes. -/
theorem C53_sticky {n : Node} (h : n.chars = []) (hs : ∀ c ∈ n.children, c.sticky = true) :
    n.text = (n.children.map Node.text).flatten := by
  by_cases hb : n.ruleType = .block
  · exact C53_block h hb
  rw [text_eq, if_pos h, show (n.ruleType == RType.block) = false from by simpa using hb]
  cases hc : n.children with
  | nil => rfl
  | cons c cs =>
    rw [hc] at hs
    rw [textLoop, joinText_nil, hs c List.mem_cons_self]
    have := textLoop_run cs [] (fun x hx => hs x (List.mem_cons_of_mem _ hx)) c.text
    rw [List.append_nil] at this
    rw [this]
    simp [textLoop]

/-- Between the texts of two children that follow each other (`between` are children without text)
there is one space, unless there is white space at the end of the first or the beginning of the
second, or the second and the child before it are sticky; then there is nothing. -/
theorem C53_between {n x y : Node} {before between after : List Node} (h : n.chars = []) (hb : n.ruleType ≠ .block)
    (hc : n.children = before ++ x :: between ++ y :: after) (he : ∀ e ∈ between, e.text = []) {u v : Rune}
    (hx : x.text.getLast? = some u) (hy : y.text.head? = some v) :
    ∃ pre post, n.text = pre ++ x.text ++
        (if isWhiteSpace u ∨ isWhiteSpace v ∨ (y.sticky = true ∧ ((x :: between).getLast?.map Node.sticky) = some true) then [] else [32]) ++
        y.text ++ post := by
  rw [text_eq, if_pos h, show (n.ruleType == RType.block) = false from by simpa using hb, hc, List.append_assoc, textLoop_append]
  generalize textLoop false [] false before = acc
  generalize (before.getLast?.map Node.sticky).getD false = ps
  rw [textLoop_append, textLoop]
  have hj : ∃ pre, joinText false acc ps x.text x.sticky = pre ++ x.text := by
    rcases joinText_cases false acc ps x.text x.sticky with h | h <;> exact ⟨_, h⟩
  obtain ⟨pre, hj⟩ := hj
  have e : textLoop false acc ps (x :: between) = pre ++ x.text := by rw [textLoop, hj, textLoop_empty false between he]
  rw [e]
  have hlast : (pre ++ x.text).getLast? = some u := by
    rw [List.getLast?_append, hx]; rfl
  have hps : ∃ q, ((x :: between).getLast?.map Node.sticky) = some q := by
    rw [List.getLast?_cons]; exact ⟨_, rfl⟩
  obtain ⟨q, hq⟩ := hps
  rw [hq, Option.getD_some]
  obtain ⟨post, hp⟩ := textLoop_prefix false after (joinText false (pre ++ x.text) q y.text y.sticky) y.sticky
  refine ⟨pre, post, ?_⟩
  rw [hp]
  congr 1
  unfold joinText
  simp only [hlast, hy]
  cases isWhiteSpace u <;> cases isWhiteSpace v <;> cases q <;> cases y.sticky <;> simp

/-- Before the text of the first child with a text there is nothing. -/
theorem C53_first {n x : Node} {before after : List Node} (h : n.chars = []) (hc : n.children = before ++ x :: after)
    (he : ∀ e ∈ before, e.text = []) : ∃ post, n.text = x.text ++ post := by
  rw [text_eq, if_pos h, hc, textLoop_append, textLoop_empty _ before he, textLoop, joinText_nil]
  exact textLoop_prefix _ _ _ _

/-- After the text of the last child with a text there is nothing. -/
theorem C53_last {n x : Node} {before after : List Node} (h : n.chars = []) (hc : n.children = before ++ x :: after)
    (he : ∀ e ∈ after, e.text = []) : ∃ pre, n.text = pre ++ x.text := by
  rw [text_eq, if_pos h, hc, textLoop_append, textLoop, textLoop_empty _ after he]
  rcases joinText_cases (n.ruleType == .block) _ _ x.text x.sticky with h | h <;> exact ⟨_, h⟩

/-- The text of an AST is the texts of its nodes, with nothing between them. -/
theorem C53_ast (ns : List Node) : astText ns = (ns.map Node.text).flatten := by
  induction ns with
  | nil => rfl
  | cons n ns ih => rw [astText, ih]; rfl

/-- The full claim is false: the words of a node with two strings are separated, the words of an AST
with the same two strings are not. -/
theorem C53_ast_counterexample :
    (branchNode .concatenate {} false [leafNode .string {} false (runes "a") none, leafNode .string {} false (runes "b") none] none).text =
      runes "a b" ∧
    astText [leafNode .string {} false (runes "a") none, leafNode .string {} false (runes "b") none] = runes "ab" := by decide +kernel

/-- Non-vacuity of `C53_between`: sticky neighbours, an empty option between them that is not sticky. -/
example : (branchNode .concatenate {} false
    [leafNode .chars {} true (runes "a") none, leafNode .chars {} true (runes "b") none, branchNode .option {} false [] none,
     leafNode .chars {} true (runes "c") none] none).text = runes "ab c" := by decide +kernel

end Xbnf.Props
