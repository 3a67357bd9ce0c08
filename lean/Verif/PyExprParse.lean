import Verif.PyExpr

/-
Lemmas about the syntax of python expressions (`PyExpr.lean`): which tokens are read as which expression
-/

namespace Verif
namespace PyExpr

mutual

/-- the tokens of an expression; sums and differences are enclosed in parentheses -/
def toks : Ast → List Tok
  | .name x => [.name x]
  | .num t => [.num t]
  | .imag t => [.imag t]
  | .str s => [.str s]
  | .attr a x => toks a ++ [.sym '.', .name x]
  | .neg a => .sym '-' :: toks a
  | .add a b => .sym '(' :: (toks a ++ .sym '+' :: (toks b ++ [.sym ')']))
  | .sub a b => .sym '(' :: (toks a ++ .sym '-' :: (toks b ++ [.sym ')']))
  | .tuple l => .sym '(' :: (toksList l ++ if l.length = 1 then [.sym ',', .sym ')'] else [.sym ')'])
  | .list l => .sym '[' :: (toksList l ++ [.sym ']'])
  | .dict l => .sym '{' :: (toksItems l ++ [.sym '}'])
  | .call f args => toks f ++ .sym '(' :: (toksArgs args ++ [.sym ')'])

/-- the tokens of expressions, that are separated by commas -/
def toksList : List Ast → List Tok
  | [] => []
  | a :: l => toks a ++ (if l.isEmpty then [] else .sym ',' :: toksList l)

/-- the tokens of the items of a dictionary -/
def toksItems : List (Ast × Ast) → List Tok
  | [] => []
  | p :: l => toksItem p ++ (if l.isEmpty then [] else .sym ',' :: toksItems l)

/-- the tokens of an item of a dictionary -/
def toksItem : Ast × Ast → List Tok
  | (k, v) => toks k ++ .sym ':' :: toks v

/-- the tokens of the arguments of a call -/
def toksArgs : List (Option (List Char) × Ast) → List Tok
  | [] => []
  | p :: l => toksArg p ++ (if l.isEmpty then [] else .sym ',' :: toksArgs l)

/-- the tokens of an argument of a call -/
def toksArg : Option (List Char) × Ast → List Tok
  | (some k, a) => .name k :: .sym '=' :: toks a
  | (none, a) => toks a

end

/-- expressions, that are restored from their tokens -/
inductive Good : Ast → Prop where
  | name (x : List Char) : Good (.name x)
  | num (t : List Char) : Good (.num t)
  | imag (t : List Char) : Good (.imag t)
  | str (s : List Char) : Good (.str s)
  | negNum (t : List Char) : Good (.neg (.num t))
  | negImag (t : List Char) : Good (.neg (.imag t))
  | add (a b : Ast) (ha : Good a) (hb : Good b) : Good (.add a b)
  | sub (a b : Ast) (ha : Good a) (hb : Good b) : Good (.sub a b)
  | tuple (l : List Ast) (h : ∀ a ∈ l, Good a) : Good (.tuple l)
  | list (l : List Ast) (h : ∀ a ∈ l, Good a) : Good (.list l)
  | dict (l : List (Ast × Ast)) (hk : ∀ p ∈ l, Good p.1) (hv : ∀ p ∈ l, Good p.2) : Good (.dict l)
  | call (f : List Char) (args : List (Option (List Char) × Ast)) (h : ∀ p ∈ args, Good p.2)
      (hp : ∀ p ∈ args, p.1 = none → ∃ l, p.2 = .list l) : Good (.call (.name f) args)
  | method (m f : List Char) (args : List (Option (List Char) × Ast)) (h : ∀ p ∈ args, Good p.2)
      (hp : ∀ p ∈ args, p.1 = none → ∃ l, p.2 = .list l) : Good (.call (.attr (.name m) f) args)

/-- the tokens do not continue an expression without operators -/
def Ends (r : List Tok) : Prop := ∀ t ∈ r.head?, t ≠ .sym '.' ∧ t ≠ .sym '('

/-- the tokens do not continue an expression -/
def Ends' (r : List Tok) : Prop := ∀ t ∈ r.head?, t ≠ .sym '.' ∧ t ≠ .sym '(' ∧ t ≠ .sym '+' ∧ t ≠ .sym '-'

theorem Ends'.ends {r : List Tok} (h : Ends' r) : Ends r := fun t ht => ⟨(h t ht).1, (h t ht).2.1⟩

theorem ends_sym {c : Char} (r : List Tok) (h : c ≠ '.' ∧ c ≠ '(' ∧ c ≠ '+' ∧ c ≠ '-') : Ends' (.sym c :: r) := by
  intro t ht
  simp only [List.head?_cons, Option.mem_def, Option.some.injEq] at ht
  subst ht
  simpa using h

theorem parseSum_ends (n : Nat) (a : Ast) {r : List Tok} (h : Ends' r) : parseSum (n + 1) a r = some (a, r) := by
  rw [parseSum]
  · intro s hs
    subst hs
    exact (h _ rfl).2.2.1 rfl
  · intro s hs
    subst hs
    exact (h _ rfl).2.2.2 rfl

theorem parseTrailers_ends (n : Nat) (a : Ast) {r : List Tok} (h : Ends r) :
    parseTrailers (n + 1) a r = some (a, r) := by
  rw [parseTrailers]
  · intro x s hs
    subst hs
    exact (h _ rfl).1 rfl
  · intro s hs
    subst hs
    exact (h _ rfl).2 rfl

theorem parseExpr_unary {n : Nat} {a : Ast} {ts r : List Tok} (hr : Ends' r) (h : parseUnary (n + 1) ts = some (a, r)) :
    parseExpr (n + 2) ts = some (a, r) := by
  rw [parseExpr, h]
  exact parseSum_ends n a hr

/-- the first token of an expression -/
theorem head_good {a : Ast} (h : Good a) : ∃ t r, toks a = t :: r ∧ t ≠ .sym ')' ∧ t ≠ .sym ']' ∧ t ≠ .sym '}' := by
  cases h <;> simp [toks]

theorem parseUnary_atom {n : Nat} {a : Ast} {t : Tok} {ts r : List Tok} (ht : t ≠ .sym '-') (hr : Ends r)
    (h : parseAtom (n + 1) (t :: ts) = some (a, r)) : parseUnary (n + 2) (t :: ts) = some (a, r) := by
  rw [parseUnary, h]
  · exact parseTrailers_ends n a hr
  · intro s hs
    simp only [List.cons.injEq] at hs
    exact ht hs.1

/-- an expression is read -/
def Reads (a : Ast) : Prop :=
  ∀ n r, 3 * (toks a).length ≤ n → Ends r → parseUnary n (toks a ++ r) = some (a, r)

theorem Reads.expr {a : Ast} (h : Reads a) (n : Nat) (r : List Tok) (hl : 3 * (toks a).length + 1 ≤ n) (h0 : toks a ≠ [])
    (hr : Ends' r) : parseExpr n (toks a ++ r) = some (a, r) := by
  have : 0 < (toks a).length := List.length_pos_iff.mpr h0
  obtain ⟨m, rfl⟩ : ∃ m, n = m + 2 := ⟨n - 2, by omega⟩
  exact parseExpr_unary hr (h (m + 1) r (by omega) hr.ends)

theorem toksList_cons (a : Ast) (l : List Ast) (hl : l ≠ []) : toksList (a :: l) = toks a ++ .sym ',' :: toksList l := by
  rw [toksList, if_neg]
  simpa using hl

theorem toksList_single (a : Ast) : toksList [a] = toks a := by
  simp [toksList]

theorem toksItems_cons (a : Ast × Ast) (l : List (Ast × Ast)) (hl : l ≠ []) :
    toksItems (a :: l) = toksItem a ++ .sym ',' :: toksItems l := by
  rw [toksItems, if_neg]
  simpa using hl

theorem toksItems_single (a : Ast × Ast) : toksItems [a] = toksItem a := by
  simp [toksItems]

theorem toksArgs_cons (a : Option (List Char) × Ast) (l : List (Option (List Char) × Ast)) (hl : l ≠ []) :
    toksArgs (a :: l) = toksArg a ++ .sym ',' :: toksArgs l := by
  rw [toksArgs, if_neg]
  simpa using hl

theorem toksArgs_single (a : Option (List Char) × Ast) : toksArgs [a] = toksArg a := by
  simp [toksArgs]

theorem comma_ends (r : List Tok) : Ends' (.sym ',' :: r) := ends_sym r (by decide)

theorem toks_ne {a : Ast} (h : Good a) : toks a ≠ [] := by
  obtain ⟨t, r, h1, -⟩ := head_good h
  rw [h1]
  exact List.cons_ne_nil _ _

/-- a sequence is read; a comma after the last element is allowed -/
theorem parseElements_good (c : Char) (hc : c = ')' ∨ c = ']') (l : List Ast) (hg : ∀ a ∈ l, Good a)
    (hl : ∀ a ∈ l, Reads a) (n : Nat) (r : List Tok) (hn : 3 * (toksList l).length + 2 ≤ n) :
    parseElements n c (toksList l ++ .sym c :: r) = some (l, r) := by
  have hend : ∀ r, Ends' (.sym c :: r) := by
    intro r
    rcases hc with rfl | rfl <;> exact ends_sym _ (by decide)
  have hcc : c ≠ ',' := by rcases hc with rfl | rfl <;> decide
  induction l generalizing n with
  | nil =>
    obtain ⟨m, rfl⟩ : ∃ m, n = m + 1 := ⟨n - 1, by omega⟩
    simp [toksList, parseElements]
  | cons a l ih =>
    obtain ⟨m, rfl⟩ : ∃ m, n = m + 1 := ⟨n - 1, by omega⟩
    have ga := hg a List.mem_cons_self
    have ra := hl a List.mem_cons_self
    obtain ⟨t, s, h1, h2⟩ := head_good ga
    have htc : t ≠ .sym c := by rcases hc with rfl | rfl; exacts [h2.1, h2.2.1]
    by_cases hl0 : l = []
    · subst hl0
      rw [toksList_single] at hn ⊢
      have e := ra.expr m (.sym c :: r) (by omega) (toks_ne ga) (hend r)
      rw [h1, List.cons_append] at e ⊢
      rw [parseElements]
      simp only [htc, if_false, e, if_true]
    · rw [toksList_cons a l hl0] at hn ⊢
      simp only [List.length_append, List.length_cons] at hn
      have e := ra.expr m (.sym ',' :: (toksList l ++ .sym c :: r)) (by omega) (toks_ne ga) (comma_ends _)
      rw [List.append_assoc, List.cons_append]
      rw [h1, List.cons_append] at e ⊢
      rw [parseElements]
      have e2 := ih (fun b hb => hg b (List.mem_cons_of_mem _ hb)) (fun b hb => hl b (List.mem_cons_of_mem _ hb)) m
        (by omega)
      simp only [htc, if_false, e, e2, if_true]
      rw [if_neg]
      simpa using hcc.symm

/-- the items of a dictionary are read -/
theorem parseItems_good (l : List (Ast × Ast)) (hg : ∀ p ∈ l, Good p.1 ∧ Good p.2) (hl : ∀ p ∈ l, Reads p.1 ∧ Reads p.2)
    (n : Nat) (r : List Tok) (hn : 3 * (toksItems l).length + 2 ≤ n) :
    parseItems n (toksItems l ++ .sym '}' :: r) = some (l, r) := by
  have hend : ∀ r, Ends' (.sym '}' :: r) := fun r => ends_sym _ (by decide)
  have hend2 : ∀ r, Ends' (.sym ':' :: r) := fun r => ends_sym _ (by decide)
  induction l generalizing n with
  | nil =>
    obtain ⟨m, rfl⟩ : ∃ m, n = m + 1 := ⟨n - 1, by omega⟩
    simp [toksItems, parseItems]
  | cons p l ih =>
    obtain ⟨m, rfl⟩ : ∃ m, n = m + 1 := ⟨n - 1, by omega⟩
    obtain ⟨a, b⟩ := p
    obtain ⟨ga, gb⟩ := hg (a, b) List.mem_cons_self
    obtain ⟨ra, rb⟩ := hl (a, b) List.mem_cons_self
    dsimp only at ga gb ra rb
    obtain ⟨t, s, h1, h2⟩ := head_good ga
    have htc : t ≠ .sym '}' := h2.2.2
    by_cases hl0 : l = []
    · subst hl0
      rw [toksItems_single, toksItem] at hn ⊢
      simp only [List.length_append, List.length_cons] at hn
      have e := ra.expr m (.sym ':' :: (toks b ++ .sym '}' :: r)) (by omega) (toks_ne ga) (hend2 _)
      have e2 := rb.expr m (.sym '}' :: r) (by omega) (toks_ne gb) (hend r)
      rw [List.append_assoc, List.cons_append]
      rw [h1, List.cons_append] at e ⊢
      rw [parseItems]
      simp only [htc, if_false, e, e2, if_true]
    · rw [toksItems_cons (a, b) l hl0, toksItem] at hn ⊢
      simp only [List.length_append, List.length_cons] at hn
      have e := ra.expr m (.sym ':' :: (toks b ++ .sym ',' :: (toksItems l ++ .sym '}' :: r))) (by omega) (toks_ne ga)
        (hend2 _)
      have e2 := rb.expr m (.sym ',' :: (toksItems l ++ .sym '}' :: r)) (by omega) (toks_ne gb) (comma_ends _)
      have e3 := ih (fun b hb => hg b (List.mem_cons_of_mem _ hb)) (fun b hb => hl b (List.mem_cons_of_mem _ hb)) m
        (by omega)
      simp only [List.append_assoc, List.cons_append]
      rw [h1, List.cons_append] at e ⊢
      rw [parseItems]
      simp only [htc, if_false, e, e2, e3, if_true]
      rfl

/-- the arguments of a call are read -/
theorem parseArgs_good (l : List (Option (List Char) × Ast)) (hg : ∀ p ∈ l, Good p.2)
    (hp : ∀ p ∈ l, p.1 = none → ∃ l, p.2 = .list l) (hl : ∀ p ∈ l, Reads p.2)
    (n : Nat) (r : List Tok) (hn : 3 * (toksArgs l).length + 2 ≤ n) :
    parseArgs n (toksArgs l ++ .sym ')' :: r) = some (l, r) := by
  have hend : ∀ r, Ends' (.sym ')' :: r) := fun r => ends_sym _ (by decide)
  induction l generalizing n with
  | nil =>
    obtain ⟨m, rfl⟩ : ∃ m, n = m + 1 := ⟨n - 1, by omega⟩
    simp [toksArgs, parseArgs]
  | cons p l ih =>
    obtain ⟨m, rfl⟩ : ∃ m, n = m + 1 := ⟨n - 1, by omega⟩
    obtain ⟨k, a⟩ := p
    have ga := hg (k, a) List.mem_cons_self
    have ra := hl (k, a) List.mem_cons_self
    dsimp only at ga ra
    have e3 := fun h => ih (fun b hb => hg b (List.mem_cons_of_mem _ hb)) (fun b hb => hp b (List.mem_cons_of_mem _ hb))
      (fun b hb => hl b (List.mem_cons_of_mem _ hb)) m h
    cases k with
    | some k =>
      by_cases hl0 : l = []
      · subst hl0
        rw [toksArgs_single, toksArg] at hn ⊢
        simp only [List.length_cons] at hn
        have e := ra.expr m (.sym ')' :: r) (by omega) (toks_ne ga) (hend r)
        simp only [List.cons_append]
        rw [parseArgs]
        simp only [e, if_true]
      · rw [toksArgs_cons _ l hl0, toksArg] at hn ⊢
        simp only [List.length_append, List.length_cons] at hn
        have e := ra.expr m (.sym ',' :: (toksArgs l ++ .sym ')' :: r)) (by omega) (toks_ne ga) (comma_ends _)
        simp only [List.append_assoc, List.cons_append]
        rw [parseArgs]
        simp only [e, e3 (by omega), if_true]
        rfl
    | none =>
      obtain ⟨b, hb⟩ := hp (none, a) List.mem_cons_self rfl
      dsimp only at hb
      have h1 : toks a = .sym '[' :: (toksList b ++ [.sym ']']) := by rw [hb, toks]
      by_cases hl0 : l = []
      · subst hl0
        rw [toksArgs_single, toksArg] at hn ⊢
        have e := ra.expr m (.sym ')' :: r) (by omega) (toks_ne ga) (hend r)
        rw [h1, List.cons_append] at e ⊢
        rw [parseArgs]
        · simp only [e, if_true]
        · intro s hs
          cases hs
        · intro x s hs
          cases hs
      · rw [toksArgs_cons _ l hl0, toksArg] at hn ⊢
        simp only [List.length_append, List.length_cons] at hn
        have e := ra.expr m (.sym ',' :: (toksArgs l ++ .sym ')' :: r)) (by omega) (toks_ne ga) (comma_ends _)
        simp only [List.append_assoc, List.cons_append]
        rw [h1, List.cons_append] at e ⊢
        rw [parseArgs]
        · simp only [e, e3 (by omega), if_true]
          rfl
        · intro s hs
          cases hs
        · intro x s hs
          cases hs

theorem parseAtom_paren {n : Nat} {a : Ast} {t : Tok} {ts r : List Tok} (ht : t ≠ .sym ')')
    (h : parseExpr n (t :: ts) = some (a, .sym ')' :: r)) : parseAtom (n + 1) (.sym '(' :: t :: ts) = some (a, r) := by
  rw [parseAtom, h]
  · rfl
  · intro s hs
    simp only [List.cons.injEq] at hs
    exact ht hs.1

theorem parseAtom_tuple {n : Nat} {a : Ast} {l : List Ast} {t : Tok} {ts r s : List Tok} (ht : t ≠ .sym ')')
    (h : parseExpr n (t :: ts) = some (a, .sym ',' :: r)) (hl : parseElements n ')' r = some (l, s)) :
    parseAtom (n + 1) (.sym '(' :: t :: ts) = some (.tuple (a :: l), s) := by
  rw [parseAtom, h]
  · simp [hl]
  · intro s hs
    simp only [List.cons.injEq] at hs
    exact ht hs.1

theorem parseSum_plus {n : Nat} {a b : Ast} {ts r : List Tok} (hr : Ends' r) (h : parseUnary (n + 1) ts = some (b, r)) :
    parseSum (n + 2) a (.sym '+' :: ts) = some (.add a b, r) := by
  rw [parseSum, h]
  exact parseSum_ends n _ hr

theorem parseSum_minus {n : Nat} {a b : Ast} {ts r : List Tok} (hr : Ends' r) (h : parseUnary (n + 1) ts = some (b, r)) :
    parseSum (n + 2) a (.sym '-' :: ts) = some (.sub a b, r) := by
  rw [parseSum, h]
  exact parseSum_ends n _ hr

/-- every good expression is read -/
theorem reads_good {a : Ast} (h : Good a) : Reads a := by
  have close : ∀ r, Ends' (.sym ')' :: r) := fun r => ends_sym _ (by decide)
  induction h with
  | name x | num x | imag x | str x =>
    intro n r hn hr
    simp only [toks, List.length_singleton] at hn
    obtain ⟨m, rfl⟩ : ∃ m, n = m + 2 := ⟨n - 2, by omega⟩
    exact parseUnary_atom (by simp) hr (by rw [List.append_eq, List.nil_append, parseAtom])
  | negNum t | negImag t =>
    intro n r hn hr
    simp only [toks, List.length_cons, List.length_nil] at hn
    obtain ⟨m, rfl⟩ : ∃ m, n = m + 3 := ⟨n - 3, by omega⟩
    simp only [toks, List.cons_append, List.nil_append]
    rw [parseUnary, parseUnary_atom (r := r) (by simp) hr (by rw [parseAtom])]
  | add a b ha hb iha ihb =>
    intro n r hn hr
    simp only [toks, List.length_cons, List.length_append, List.length_nil] at hn
    obtain ⟨m, rfl⟩ : ∃ m, n = m + 2 := ⟨n - 2, by omega⟩
    have la := List.length_pos_iff.mpr (toks_ne ha)
    have lb := List.length_pos_iff.mpr (toks_ne hb)
    obtain ⟨t, s, h1, h2⟩ := head_good ha
    simp only [toks, List.cons_append, List.append_assoc, List.nil_append]
    have e : parseExpr m (toks a ++ .sym '+' :: (toks b ++ .sym ')' :: r)) = some (.add a b, .sym ')' :: r) := by
      obtain ⟨k, rfl⟩ : ∃ k, m = k + 3 := ⟨m - 3, by omega⟩
      rw [parseExpr, iha (k + 2) _ (by omega) (fun t ht => by
        simp only [List.head?_cons, Option.mem_def, Option.some.injEq] at ht
        subst ht
        simp)]
      exact parseSum_plus (close r) (ihb (k + 1) _ (by omega) (close r).ends)
    refine parseUnary_atom (by simp) hr ?_
    rw [h1, List.cons_append] at e ⊢
    exact parseAtom_paren h2.1 e
  | sub a b ha hb iha ihb =>
    intro n r hn hr
    simp only [toks, List.length_cons, List.length_append, List.length_nil] at hn
    obtain ⟨m, rfl⟩ : ∃ m, n = m + 2 := ⟨n - 2, by omega⟩
    have la := List.length_pos_iff.mpr (toks_ne ha)
    have lb := List.length_pos_iff.mpr (toks_ne hb)
    obtain ⟨t, s, h1, h2⟩ := head_good ha
    simp only [toks, List.cons_append, List.append_assoc, List.nil_append]
    have e : parseExpr m (toks a ++ .sym '-' :: (toks b ++ .sym ')' :: r)) = some (.sub a b, .sym ')' :: r) := by
      obtain ⟨k, rfl⟩ : ∃ k, m = k + 3 := ⟨m - 3, by omega⟩
      rw [parseExpr, iha (k + 2) _ (by omega) (fun t ht => by
        simp only [List.head?_cons, Option.mem_def, Option.some.injEq] at ht
        subst ht
        simp)]
      exact parseSum_minus (close r) (ihb (k + 1) _ (by omega) (close r).ends)
    refine parseUnary_atom (by simp) hr ?_
    rw [h1, List.cons_append] at e ⊢
    exact parseAtom_paren h2.1 e
  | tuple l hl ih =>
    intro n r hn hr
    match l, hl, ih with
    | [], _, _ =>
      simp only [toks, List.length_cons] at hn
      obtain ⟨m, rfl⟩ : ∃ m, n = m + 2 := ⟨n - 2, by omega⟩
      exact parseUnary_atom (by simp) hr (by simp [toksList, parseAtom])
    | [a], hl, ih =>
      have ha := hl a List.mem_cons_self
      have ra := ih a List.mem_cons_self
      simp only [toks, List.length_cons, List.length_append, toksList_single, List.length_nil, Nat.zero_add, if_true] at hn
      obtain ⟨m, rfl⟩ : ∃ m, n = m + 2 := ⟨n - 2, by omega⟩
      obtain ⟨t, s, h1, h2⟩ := head_good ha
      simp only [toks, List.cons_append, List.append_assoc, List.nil_append, toksList_single, List.length_cons,
        List.length_nil, Nat.zero_add, if_true]
      have e := ra.expr m (.sym ',' :: .sym ')' :: r) (by omega) (toks_ne ha) (comma_ends _)
      refine parseUnary_atom (by simp) hr ?_
      rw [h1, List.cons_append] at e ⊢
      obtain ⟨k, rfl⟩ : ∃ k, m = k + 1 := ⟨m - 1, by omega⟩
      exact parseAtom_tuple h2.1 e (by simp [parseElements])
    | a :: b :: l, hl, ih =>
      have ha := hl a List.mem_cons_self
      have ra := ih a List.mem_cons_self
      have hne : ¬ (a :: b :: l).length = 1 := by simp
      rw [toks, if_neg hne, toksList_cons a (b :: l) (by simp)] at hn ⊢
      simp only [List.length_cons, List.length_append, List.length_nil] at hn
      obtain ⟨m, rfl⟩ : ∃ m, n = m + 2 := ⟨n - 2, by omega⟩
      obtain ⟨t, s, h1, h2⟩ := head_good ha
      simp only [List.cons_append, List.append_assoc, List.nil_append]
      have e := ra.expr m (.sym ',' :: (toksList (b :: l) ++ .sym ')' :: r)) (by omega) (toks_ne ha) (comma_ends _)
      have e2 := parseElements_good ')' (.inl rfl) (b :: l) (fun c hc => hl c (List.mem_cons_of_mem _ hc))
        (fun c hc => ih c (List.mem_cons_of_mem _ hc)) m r (by omega)
      refine parseUnary_atom (by simp) hr ?_
      rw [h1, List.cons_append] at e ⊢
      exact parseAtom_tuple h2.1 e e2
  | list l hl ih =>
    intro n r hn hr
    simp only [toks, List.length_cons, List.length_append, List.length_nil] at hn
    obtain ⟨m, rfl⟩ : ∃ m, n = m + 2 := ⟨n - 2, by omega⟩
    simp only [toks, List.cons_append, List.append_assoc, List.nil_append]
    refine parseUnary_atom (by simp) hr ?_
    rw [parseAtom, parseElements_good ']' (.inr rfl) l hl ih m r (by omega)]
  | dict l hk hv ihk ihv =>
    intro n r hn hr
    simp only [toks, List.length_cons, List.length_append, List.length_nil] at hn
    obtain ⟨m, rfl⟩ : ∃ m, n = m + 2 := ⟨n - 2, by omega⟩
    simp only [toks, List.cons_append, List.append_assoc, List.nil_append]
    refine parseUnary_atom (by simp) hr ?_
    rw [parseAtom, parseItems_good l (fun p hp => ⟨hk p hp, hv p hp⟩) (fun p hp => ⟨ihk p hp, ihv p hp⟩) m r (by omega)]
  | call f args ha hp ih =>
    intro n r hn hr
    simp only [toks, List.length_cons, List.length_append, List.length_nil] at hn
    obtain ⟨m, rfl⟩ : ∃ m, n = m + 3 := ⟨n - 3, by omega⟩
    simp only [toks, List.cons_append, List.append_assoc, List.nil_append]
    rw [parseUnary, parseAtom]
    · dsimp only
      rw [parseTrailers, parseArgs_good args ha hp ih (m + 1) r (by omega)]
      exact parseTrailers_ends m _ hr
    · intro s hs
      cases hs
  | method g f args ha hp ih =>
    intro n r hn hr
    simp only [toks, List.length_cons, List.length_append, List.length_nil] at hn
    obtain ⟨m, rfl⟩ : ∃ m, n = m + 4 := ⟨n - 4, by omega⟩
    simp only [toks, List.cons_append, List.append_assoc, List.nil_append]
    rw [parseUnary, parseAtom]
    · dsimp only
      rw [parseTrailers, parseTrailers, parseArgs_good args ha hp ih (m + 1) r (by omega)]
      exact parseTrailers_ends m _ hr
    · intro s hs
      cases hs

/-- a text, whose tokens are those of a good expression, is read as this expression -/
theorem parse_good {a : Ast} {s : List Char} (h : Good a) (hs : lex s = some (toks a)) : parse s = some a := by
  have e := (reads_good h).expr (3 * (toks a).length + 3) [] (by omega) (toks_ne h) (fun t ht => by simp at ht)
  rw [List.append_nil] at e
  rw [parse, hs]
  dsimp only
  rw [e]

end PyExpr
end Verif
