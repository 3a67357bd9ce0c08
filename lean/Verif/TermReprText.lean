import Verif.TermRepr
import Verif.PyExprLex
import Verif.TermJsonProps
import Mathlib.Tactic.Linarith

/-
Lemmas about the text representation of filters (`TermRepr.lean`): the values of the texts
-/

namespace Verif
namespace Filter

open Interpolation (Mode Logs)
open PyExpr
open BandsText (IsUnsigned)

/-! ### the expressions of the texts -/

/-- a text is the text of an expression -/
def Prints (s : List Char) (a : Ast) : Prop := Good a ∧ ∀ r us, Break r → L r us → L (s ++ r) (toks a ++ us)

theorem prints_name {x : List Char} (h : IsName x) : Prints x (.name x) :=
  ⟨.name x, fun _ _ hr h' => by rw [toks]; exact L_name h hr h'⟩

theorem prints_num {u : List Char} (h : IsNumber u) : Prints u (.num u) :=
  ⟨.num u, fun _ _ hr h' => by rw [toks]; exact L_num h hr h'⟩

theorem prints_imag {u : List Char} (h : IsNumber u) : Prints (u ++ ['j']) (.imag u) :=
  ⟨.imag u, fun r us _ h' => by
    rw [toks, List.append_assoc]
    exact L_imag h h'⟩

theorem prints_neg {u : List Char} (h : IsNumber u) : Prints ('-' :: u) (.neg (.num u)) :=
  ⟨.negNum u, fun r us hr h' => by
    rw [toks, toks]
    exact L_sym (by decide) (L_num h hr h')⟩

theorem prints_negImag {u : List Char} (h : IsNumber u) : Prints ('-' :: (u ++ ['j'])) (.neg (.imag u)) :=
  ⟨.negImag u, fun r us _ h' => by
    rw [toks, toks]
    refine L_sym (by decide) ?_
    show L (u ++ ['j'] ++ r) _
    rw [List.append_assoc]
    exact L_imag h h'⟩

theorem prints_str (printable : Char → Bool) (s : List Char) : Prints (reprStr printable s) (.str s) :=
  ⟨.str s, fun r us _ h' => by rw [toks]; exact L_str h'⟩

theorem prints_add {s : List Char} {a : Ast} {u : List Char} (ha : Prints s a) (hu : IsNumber u) :
    Prints ('(' :: s ++ (['+'] ++ u) ++ ['j', ')']) (.add a (.imag u)) :=
  ⟨.add _ _ ha.1 (.imag u), fun r us _ h' => by
    rw [toks, toks]
    simp only [List.cons_append, List.append_assoc, List.nil_append]
    exact L_sym (by decide) (ha.2 _ _ (break_cons _ (by decide)) (L_sym (by decide) (L_imag hu (L_sym (by decide) h'))))⟩

theorem prints_sub {s : List Char} {a : Ast} {u : List Char} (ha : Prints s a) (hu : IsNumber u) :
    Prints ('(' :: s ++ ([] ++ '-' :: u) ++ ['j', ')']) (.sub a (.imag u)) :=
  ⟨.sub _ _ ha.1 (.imag u), fun r us _ h' => by
    rw [toks, toks]
    simp only [List.cons_append, List.append_assoc, List.nil_append]
    exact L_sym (by decide) (ha.2 _ _ (break_cons _ (by decide)) (L_sym (by decide) (L_imag hu (L_sym (by decide) h'))))⟩

theorem forall2_ne {β γ : Type} {R : β → γ → Prop} {l : List β} {m : List γ} (h : List.Forall₂ R l m) (hl : l ≠ []) :
    m ≠ [] := by
  rintro rfl
  cases h
  exact hl rfl

theorem join_cons (sep x : List Char) (l : List (List Char)) (h : l ≠ []) : join sep (x :: l) = x ++ sep ++ join sep l := by
  cases l with
  | nil => exact absurd rfl h
  | cons y l => rfl

theorem L_join {l : List (List Char)} {as : List Ast} (h : List.Forall₂ Prints l as) {c : Char} {r : List Char}
    {us : List Tok} (hc : isSym c = true) (hb : nameChar c = false ∧ c ≠ '.') (hr : L r us) :
    L (join [',', ' '] l ++ c :: r) (toksList as ++ .sym c :: us) := by
  induction h with
  | nil => exact L_sym hc hr
  | @cons x a l as h1 h2 ih =>
    by_cases hl : l = []
    · subst hl
      cases h2
      rw [toksList_single]
      exact h1.2 _ _ (break_cons _ hb) (L_sym hc hr)
    · rw [join_cons _ _ _ hl, toksList_cons _ _ (forall2_ne h2 hl)]
      simp only [List.append_assoc, List.cons_append, List.nil_append]
      exact h1.2 _ _ (break_cons _ (by decide)) (L_sym (by decide) (L_space ih))

theorem L_joinBreaks (breaks : Nat → Bool) {l : List (List Char)} {as : List Ast} (h : List.Forall₂ Prints l as) (i : Nat)
    {r : List Char} {us : List Tok} (hr : L r us) :
    L (joinBreaks breaks i l ++ ']' :: r) (toksList as ++ .sym ']' :: us) := by
  induction h generalizing i with
  | nil => exact L_sym (by decide) hr
  | @cons x a l as h1 h2 ih =>
    cases l with
    | nil =>
      cases h2
      rw [toksList_single]
      exact h1.2 _ _ (break_cons _ (by decide)) (L_sym (by decide) hr)
    | cons y l =>
      rw [toksList_cons _ _ (forall2_ne h2 (by simp)), joinBreaks]
      · simp only [List.append_assoc, List.cons_append]
        refine h1.2 _ _ (break_cons _ (by decide)) (L_sym (by decide) ?_)
        cases breaks i with
        | true => exact L_newline (ih _)
        | false => exact ih _
      · intro hn
        cases hn

theorem good_of_prints {l : List (List Char)} {as : List Ast} (h : List.Forall₂ Prints l as) : ∀ a ∈ as, Good a := by
  induction h with
  | nil => simp
  | cons h1 _ ih =>
    intro a ha
    rcases List.mem_cons.mp ha with rfl | ha
    · exact h1.1
    · exact ih a ha

theorem prints_list {l : List (List Char)} {as : List Ast} (h : List.Forall₂ Prints l as) :
    Prints (reprList l) (.list as) :=
  ⟨.list as (good_of_prints h), fun r us _ h' => by
    rw [toks, reprList]
    simp only [List.cons_append, List.append_assoc, List.nil_append]
    exact L_sym (by decide) (L_join h (by decide) (by decide) h')⟩

theorem prints_tuple {l : List (List Char)} {as : List Ast} (h : List.Forall₂ Prints l as) :
    Prints (tupleText l) (.tuple as) :=
  ⟨.tuple as (good_of_prints h), fun r us _ h' => by
    have e := h.length_eq
    rw [toks]
    match l, h with
    | [x], h =>
      cases h with
      | @cons _ a _ _ h1 h2 =>
        cases h2
        rw [toksList_single, if_pos (by simp), tupleText]
        simp only [List.cons_append, List.append_assoc, List.nil_append]
        exact L_sym (by decide) (h1.2 _ _ (break_cons _ (by decide)) (L_sym (by decide) (L_sym (by decide) h')))
    | [], h =>
      cases h
      exact L_sym (by decide) (L_sym (by decide) h')
    | x :: y :: l, h =>
      rw [if_neg (by rw [← e]; simp), tupleText]
      · simp only [List.cons_append, List.append_assoc, List.nil_append]
        exact L_sym (by decide) (L_join h (by decide) (by decide) h')
      · intro z hz
        cases hz⟩

theorem name_array : IsName "array".toList := ⟨'a', "rray".toList, by decide, by decide, by decide⟩

theorem prints_array {α : Type} (T : Texts α) {l : List (List Char)} {as : List Ast} (h : List.Forall₂ Prints l as) :
    Prints (reprArray T l) (.call (.name "array".toList) [(none, .list as)]) := by
  refine ⟨.call _ _ ?_ ?_, fun r us _ h' => ?_⟩
  · intro p hp
    rw [List.mem_singleton] at hp
    subst hp
    exact .list as (good_of_prints h)
  · intro p hp _
    rw [List.mem_singleton] at hp
    subst hp
    exact ⟨as, rfl⟩
  · rw [toks, toks, toksArgs_single, toksArg, toks, reprArray]
    simp only [List.cons_append, List.append_assoc, List.nil_append]
    exact L_name name_array (break_cons _ (by decide))
      (L_sym (by decide) (L_sym (by decide) (L_joinBreaks _ h 0 (L_sym (by decide) h'))))

theorem L_joinItems {l : List (List Char × List Char)} {as : List (Ast × Ast)}
    (h : List.Forall₂ (fun p q => Prints p.1 q.1 ∧ Prints p.2 q.2) l as) {r : List Char}
    {us : List Tok} (hr : L r us) :
    L (join [',', ' '] (l.map fun p => p.1 ++ ':' :: ' ' :: p.2) ++ '}' :: r) (toksItems as ++ .sym '}' :: us) := by
  induction h with
  | nil => exact L_sym (by decide) hr
  | @cons x a l as h1 h2 ih =>
    by_cases hl : l = []
    · subst hl
      cases h2
      obtain ⟨a, b⟩ := a
      rw [toksItems_single, toksItem, List.map_cons, List.map_nil, join]
      simp only [List.append_assoc, List.cons_append]
      exact h1.1.2 _ _ (break_cons _ (by decide))
        (L_sym (by decide) (L_space (h1.2.2 _ _ (break_cons _ (by decide)) (L_sym (by decide) hr))))
    · obtain ⟨a, b⟩ := a
      rw [List.map_cons, join_cons _ _ _ (by simpa using hl), toksItems_cons _ _ (forall2_ne h2 hl), toksItem]
      simp only [List.append_assoc, List.cons_append, List.nil_append]
      exact h1.1.2 _ _ (break_cons _ (by decide))
        (L_sym (by decide) (L_space (h1.2.2 _ _ (break_cons _ (by decide)) (L_sym (by decide) (L_space ih)))))

theorem prints_dict {l : List (List Char × List Char)} {as : List (Ast × Ast)}
    (h : List.Forall₂ (fun p q => Prints p.1 q.1 ∧ Prints p.2 q.2) l as) : Prints (reprDict l) (.dict as) := by
  have hg : ∀ p ∈ as, Good p.1 ∧ Good p.2 := by
    induction h with
    | nil => simp
    | cons h1 _ ih =>
      intro a ha
      rcases List.mem_cons.mp ha with rfl | ha
      · exact ⟨h1.1.1, h1.2.1⟩
      · exact ih a ha
  refine ⟨.dict as (fun p hp => (hg p hp).1) (fun p hp => (hg p hp).2), fun r us _ h' => ?_⟩
  rw [toks, reprDict]
  simp only [List.cons_append, List.append_assoc, List.nil_append]
  exact L_sym (by decide) (L_joinItems h h')

/-- the keyword arguments of a call -/
def keywordArgs (as : List (String × Ast)) : List (Option (List Char) × Ast) := as.map fun p => (some p.1.toList, p.2)

/-- keyword arguments are printed -/
def PrintsArg (p : String × List Char) (q : String × Ast) : Prop := p.1 = q.1 ∧ IsName p.1.toList ∧ Prints p.2 q.2

theorem L_joinArgs {l : List (String × List Char)} {as : List (String × Ast)}
    (h : List.Forall₂ PrintsArg l as) {r : List Char} {us : List Tok} (hr : L r us) :
    L (join [',', ' '] (l.map reprArg) ++ ')' :: r) (toksArgs (keywordArgs as) ++ .sym ')' :: us) := by
  induction h with
  | nil => exact L_sym (by decide) hr
  | @cons x a l as h1 h2 ih =>
    obtain ⟨k, v⟩ := a
    obtain ⟨k', v'⟩ := x
    obtain ⟨e1, e2, e3⟩ := h1
    dsimp only at e1 e2 e3
    subst e1
    by_cases hl : l = []
    · subst hl
      cases h2
      rw [show keywordArgs [(k', v)] = [(some k'.toList, v)] from rfl, toksArgs_single, toksArg, List.map_cons,
        List.map_nil, join, reprArg]
      simp only [List.append_assoc, List.cons_append]
      exact L_name e2 (break_cons _ (by decide)) (L_sym (by decide) (e3.2 _ _ (break_cons _ (by decide)) (L_sym (by decide) hr)))
    · rw [List.map_cons, join_cons _ _ _ (by simpa using hl), keywordArgs, List.map_cons,
        toksArgs_cons _ _ (by simpa using forall2_ne h2 hl), toksArg, reprArg]
      simp only [List.append_assoc, List.cons_append, List.nil_append]
      exact L_name e2 (break_cons _ (by decide)) (L_sym (by decide) (e3.2 _ _ (break_cons _ (by decide))
        (L_sym (by decide) (L_space ih))))

theorem good_args {l : List (String × List Char)} {as : List (String × Ast)}
    (h : List.Forall₂ PrintsArg l as) :
    (∀ p ∈ keywordArgs as, Good p.2) ∧ ∀ p ∈ keywordArgs as, p.1 = none → ∃ l, p.2 = .list l := by
  refine ⟨?_, ?_⟩
  · induction h with
    | nil => simp [keywordArgs]
    | cons h1 _ ih =>
      intro a ha
      rw [keywordArgs, List.map_cons] at ha
      rcases List.mem_cons.mp ha with rfl | ha
      · exact h1.2.2.1
      · exact ih a ha
  · intro p hp hn
    obtain ⟨q, -, rfl⟩ := List.mem_map.mp hp
    cases hn

theorem name_filter : IsName "Filter".toList := ⟨'F', "ilter".toList, by decide, by decide, by decide⟩

theorem prints_call {cls : String} (hc : IsName cls.toList) {l : List (String × List Char)} {as : List (String × Ast)}
    (h : List.Forall₂ PrintsArg l as) :
    Prints (reprCall cls l) (.call (.attr (.name "Filter".toList) cls.toList) (keywordArgs as)) := by
  refine ⟨.method _ _ _ (good_args h).1 (good_args h).2, fun r us _ h' => ?_⟩
  rw [toks, toks, toks, reprCall]
  simp only [List.cons_append, List.append_assoc, List.nil_append]
  exact L_name_dot name_filter (L_name hc (break_cons _ (by decide)) (L_sym (by decide) (L_joinArgs h h')))

theorem prints_function {cls : String} (hc : IsName cls.toList) {l : List (String × List Char)} {as : List (String × Ast)}
    (h : List.Forall₂ PrintsArg l as) :
    Prints (cls.toList ++ '(' :: (join [',', ' '] (l.map reprArg) ++ [')']))
      (.call (.name cls.toList) (keywordArgs as)) := by
  refine ⟨.call _ _ (good_args h).1 (good_args h).2, fun r us _ h' => ?_⟩
  rw [toks, toks]
  simp only [List.cons_append, List.append_assoc, List.nil_append]
  exact L_name hc (break_cons _ (by decide)) (L_sym (by decide) (L_joinArgs h h'))

/-! ### the values of the texts -/

variable {α K : Type} [Field α] [LinearOrder α] [Field K] [DecidableEq K]

theorem ev_ok {β γ : Type} (x : β) (g : β → Ev γ) : ((.ok x : Ev β) >>= g) = g x := rfl

theorem ev_error {β γ : Type} (e : EvalExc) (g : β → Ev γ) : ((.error e : Ev β) >>= g) = .error e := rfl

/-- the results of a sequence of evaluations -/
def sequence {β : Type} : List (Ev β) → Ev (List β)
  | [] => .ok []
  | v :: l => v >>= fun x => sequence l >>= fun l => .ok (x :: l)

theorem sequence_ok {β γ : Type} (g : β → γ) (l : List β) :
    sequence (l.map fun x => (.ok (g x) : Ev γ)) = .ok (l.map g) := by
  induction l with
  | nil => rfl
  | cons x l ih => rw [List.map_cons, sequence, ev_ok, ih]; rfl

/-- the value of a text -/
def Denotes (T : Texts α) (N : Numbers α K) (E : Env α K) (n : Nat) (s : List Char) (v : Ev (Obj α K)) : Prop :=
  ∃ a, Prints s a ∧ evalAst T N E n a = v

variable {T : Texts α} {N : Numbers α K} {E : Env α K} {n : Nat}

theorem denotes_eval {s : List Char} {v : Ev (Obj α K)} (h : Denotes T N E n s v) : evalText T N E n s = v := by
  obtain ⟨a, ⟨h1, h2⟩, rfl⟩ := h
  have e := h2 [] [] (fun c hc => by simp at hc) L_nil
  rw [List.append_nil, List.append_nil] at e
  rw [evalText, parse_good h1 (L_lex e)]

theorem denotes_asts {l : List (List Char)} {vs : List (Ev (Obj α K))} (h : List.Forall₂ (Denotes T N E n) l vs) :
    ∃ as, List.Forall₂ Prints l as ∧ evalElements T N E n as = sequence vs := by
  induction h with
  | nil => exact ⟨[], .nil, by rw [evalElements, sequence]⟩
  | cons h1 _ ih =>
    obtain ⟨a, p1, rfl⟩ := h1
    obtain ⟨as, p2, e2⟩ := ih
    exact ⟨a :: as, .cons p1 p2, by rw [evalElements, sequence, e2]⟩

theorem denotes_seq (kind : SeqKind) {l : List (List Char)} {vs : List (Ev (Obj α K))}
    (h : List.Forall₂ (Denotes T N E n) l vs) :
    Denotes T N E n (reprSeq T kind l) (sequence vs >>= fun l => .ok (.seq l)) := by
  obtain ⟨as, h1, h2⟩ := denotes_asts h
  cases kind with
  | tuple => exact ⟨_, prints_tuple h1, by rw [evalAst, h2]⟩
  | list => exact ⟨_, prints_list h1, by rw [evalAst, h2]⟩
  | array =>
    refine ⟨_, prints_array T h1, ?_⟩
    rw [evalAst]
    have hc : callee (.name "array".toList) = .ok .array := by simp [callee]
    rw [hc, ev_ok, evalArgs, evalArg, evalAst, h2]
    cases sequence vs with
    | error e => rfl
    | ok l => simp only [ev_ok, evalArgs]; rfl

theorem denotes_array {l : List (List Char)} {vs : List (Ev (Obj α K))}
    (h : List.Forall₂ (Denotes T N E n) l vs) :
    Denotes T N E n (reprArray T l) (sequence vs >>= fun l => .ok (.seq l)) := denotes_seq .array h

theorem denotes_list {l : List (List Char)} {vs : List (Ev (Obj α K))}
    (h : List.Forall₂ (Denotes T N E n) l vs) :
    Denotes T N E n (reprList l) (sequence vs >>= fun l => .ok (.seq l)) := denotes_seq .list h

theorem denotes_tuple {l : List (List Char)} {vs : List (Ev (Obj α K))}
    (h : List.Forall₂ (Denotes T N E n) l vs) :
    Denotes T N E n (tupleText l) (sequence vs >>= fun l => .ok (.seq l)) := denotes_seq .tuple h

theorem denotes_str (s : String) : Denotes T N E n (reprStr T.printable s.toList) (.ok (.str s)) :=
  ⟨_, prints_str _ _, by rw [evalAst, String.ofList_toList]⟩

theorem denotes_bool (b : Bool) : Denotes T N E n (reprBool b) (.ok (.bool b)) := by
  cases b with
  | true => exact ⟨_, prints_name ⟨'T', "rue".toList, by decide, by decide, by decide⟩, by simp [evalAst, reprBool]⟩
  | false => exact ⟨_, prints_name ⟨'F', "alse".toList, by decide, by decide, by decide⟩, by simp [evalAst, reprBool]⟩

theorem denotes_mode (m : Mode) : Denotes T N E n (reprInt (modeNumber m)) (.ok (.int (modeNumber m))) := by
  cases m <;> exact ⟨_, prints_num (.digits _ (by decide) (by decide)), by rw [evalAst]; rfl⟩

/-- a keyword argument with its value -/
def DenotesArg (T : Texts α) (N : Numbers α K) (E : Env α K) (n : Nat) (p : String × List Char)
    (q : String × Ev (Obj α K)) : Prop := p.1 = q.1 ∧ IsName p.1.toList ∧ Denotes T N E n p.2 q.2

/-- the values of keyword arguments -/
def keywordValues (vs : List (String × Ev (Obj α K))) : Ev (List (Option (List Char) × Obj α K)) :=
  sequence (vs.map fun q => q.2 >>= fun x => .ok (some q.1.toList, x))

theorem denotes_args {l : List (String × List Char)} {vs : List (String × Ev (Obj α K))}
    (h : List.Forall₂ (DenotesArg T N E n) l vs) :
    ∃ as, List.Forall₂ PrintsArg l as ∧ evalArgs T N E n (keywordArgs as) = keywordValues vs := by
  induction h with
  | nil => exact ⟨[], .nil, by rw [keywordArgs, List.map_nil, evalArgs]; rfl⟩
  | @cons p q l vs h1 _ ih =>
    obtain ⟨e1, e2, a, p1, e3⟩ := h1
    obtain ⟨as, p2, e4⟩ := ih
    refine ⟨(q.1, a) :: as, .cons ⟨e1, e2, p1⟩ p2, ?_⟩
    rw [keywordArgs, List.map_cons, evalArgs, evalArg, e3, keywordValues, List.map_cons, sequence]
    rw [keywordArgs, keywordValues] at e4
    rw [e4]

theorem denotes_call {cls : String} (hc : IsName cls.toList) (hf : cls ∈ factories) {l : List (String × List Char)}
    {vs : List (String × Ev (Obj α K))} (h : List.Forall₂ (DenotesArg T N E n) l vs) :
    Denotes T N E n (reprCall cls l) (keywordValues vs >>= fun args => apply N E n (.factory cls.toList) args) := by
  obtain ⟨as, h1, h2⟩ := denotes_args h
  refine ⟨_, prints_call hc h1, ?_⟩
  rw [evalAst, h2]
  have hc : callee (.attr (.name "Filter".toList) cls.toList) = .ok (.factory cls.toList) := by
    simp [callee, hf]
  rw [hc, ev_ok]

/-! ### the numbers -/

/-- The documented behaviour of `repr`, `float` and the text of complex numbers for the numbers, that are representable as floats,
without infinity, NaN and the negative zero: negative numbers have the text of their absolute value after a minus. Texts of
floats have a decimal separator or an exponent. Texts of parts of complex numbers can also be integer numbers. -/
structure Texts.Ok (T : Texts α) (F : α → Prop) : Prop where
  neg : ∀ x, F x → F (-x)
  parse : ∀ x, F x → 0 ≤ x → T.parse (T.repr x) = some x
  unsigned : ∀ x, F x → 0 ≤ x → IsUnsigned (T.repr x)
  negative : ∀ x, F x → x < 0 → T.repr x = '-' :: T.repr (-x)
  part : ∀ x, F x → 0 ≤ x → (IsUnsigned (T.part x) ∧ T.parse (T.part x) = some x) ∨
    (T.part x ≠ [] ∧ (∀ c ∈ T.part x, c.isDigit = true) ∧ (digitsValue (T.part x) : α) = x)
  negativePart : ∀ x, F x → x < 0 → T.part x = '-' :: T.part (-x)

/-- real numbers are converted to complex numbers by a homomorphism -/
def Numbers.Hom (N : Numbers α K) : Prop := ∃ g : α →+* K, ∀ x, N.ofReal x = g x

/-- the value of a number -/
def numberObj (N : Numbers α K) (z : K) : Obj α K := if N.isComplex z then .complex z else .real (N.re z)

theorem unsigned_not_digits {u : List Char} (h : IsUnsigned u) : u.all Char.isDigit = false := by
  rw [List.all_eq_false]
  cases h with
  | fixed a b ha hb da db => exact ⟨'.', by simp, by decide⟩
  | whole a e s ha he da de hs => exact ⟨'e', by simp, by decide⟩
  | exponent a b e s ha hb he da db de hs => exact ⟨'.', by simp, by decide⟩

omit [Field α] [LinearOrder α] [Field K] [DecidableEq K] in
theorem literal_unsigned {u : List Char} {x : α} (h : IsUnsigned u) (hp : T.parse u = some x) :
    literal (K := K) T u = .ok (.real x) := by
  rw [literal, unsigned_not_digits h, hp]
  rfl

variable {F : α → Prop}

section Ordered

variable [IsStrictOrderedRing α]

theorem denotes_float (hT : T.Ok F) {x : α} (hx : F x) : Denotes T N E n (T.repr x) (.ok (.real x)) := by
  rcases le_or_gt 0 x with h | h
  · exact ⟨_, prints_num (.unsigned _ (hT.unsigned x hx h)), by
      rw [evalAst, literal_unsigned (hT.unsigned x hx h) (hT.parse x hx h)]⟩
  · have h' : 0 ≤ -x := by linarith
    rw [hT.negative x hx h]
    refine ⟨_, prints_neg (.unsigned _ (hT.unsigned _ (hT.neg x hx) h')), ?_⟩
    rw [evalAst, evalAst, literal_unsigned (hT.unsigned _ (hT.neg x hx) h') (hT.parse _ (hT.neg x hx) h'), ev_ok, Obj.neg,
      neg_neg]

omit [IsStrictOrderedRing α] in
omit [DecidableEq K] in
/-- a part of a complex number, that is not negative -/
theorem part_nonneg (hT : T.Ok F) (hN : N.Hom) {x : α} (hx : F x) (h : 0 ≤ x) : IsNumber (T.part x) ∧
    ∃ o : Obj α K, literal T (T.part x) = .ok o ∧ o.toComplex N = .ok (N.ofReal x) ∧
      ∃ p : Obj α K, o.neg = .ok p ∧ p.toComplex N = .ok (N.ofReal (-x)) ∧
        ∀ z : K, o.add N (.complex z) = .ok (.complex (N.ofReal x + z)) ∧
          p.add N (.complex z) = .ok (.complex (N.ofReal (-x) + z)) := by
  obtain ⟨g, hg⟩ := hN
  rcases hT.part x hx h with ⟨h1, h2⟩ | ⟨h1, h2, h3⟩
  · exact ⟨.unsigned _ h1, .real x, literal_unsigned h1 h2, rfl, .real (-x), rfl, rfl, fun z => ⟨rfl, rfl⟩⟩
  · refine ⟨.digits _ h1 h2, .int (digitsValue (T.part x) : ℕ), ?_, ?_, .int (-(digitsValue (T.part x) : ℕ)), rfl, ?_, ?_⟩
    · rw [literal, if_pos (List.all_eq_true.mpr h2)]
    · rw [Obj.toComplex, hg]
      congr 1
      rw [← h3, map_natCast, Int.cast_natCast, h3]
    · rw [Obj.toComplex, hg]
      congr 1
      rw [map_neg, ← h3, map_natCast, Int.cast_neg, Int.cast_natCast, h3]
    · have e1 : ((digitsValue (T.part x) : ℕ) : K) = N.ofReal x := by
        rw [hg]
        conv_rhs => rw [← h3]
        rw [map_natCast]
      have e2 : N.ofReal (-x) = -N.ofReal x := by
        rw [hg, hg, map_neg]
      intro z
      simp only [Obj.add, Obj.toComplex, ev_ok, Int.cast_neg, Int.cast_natCast, e1, e2, and_self]

theorem denotes_complex (hT : T.Ok F) (hN : N.Hom) {x y : α} (hx : F x) (hy : F y) :
    Denotes T N E n (reprComplex T x y) (.ok (.complex (N.ofReal x + N.ofReal y * N.i))) := by
  have hom := hN
  obtain ⟨g, hg⟩ := hom
  have neg : ∀ x, N.ofReal (-x) = -N.ofReal x := fun x => by rw [hg, hg, map_neg]
  have im : ∀ y, F y → 0 ≤ y → IsNumber (T.part y) ∧
      evalAst T N E n (.imag (T.part y)) = .ok (.complex (N.ofReal y * N.i)) := by
    intro y hy h
    obtain ⟨h1, o, h2, h3, -⟩ := part_nonneg (K := K) hT hN hy h
    refine ⟨h1, ?_⟩
    rw [evalAst, imaginary, h2, ev_ok, h3, ev_ok]
  unfold reprComplex
  by_cases h0 : x = 0
  · rw [if_pos h0]
    have hz : N.ofReal x = 0 := by rw [hg, h0, map_zero]
    rw [hz, zero_add]
    rcases le_or_gt 0 y with h | h
    · obtain ⟨h1, h2⟩ := im y hy h
      exact ⟨_, prints_imag h1, h2⟩
    · obtain ⟨h1, h2⟩ := im (-y) (hT.neg y hy) (by linarith)
      rw [hT.negativePart y hy h]
      refine ⟨_, prints_negImag h1, ?_⟩
      rw [evalAst, h2, ev_ok, Obj.neg, neg, neg_mul, neg_neg]
  · rw [if_neg h0]
    have real : ∃ a, Prints (T.part x) a ∧ ∃ o : Obj α K, evalAst T N E n a = .ok o ∧
        ∀ z, o.add N (.complex z) = .ok (.complex (N.ofReal x + z)) := by
      rcases le_or_gt 0 x with h | h
      · obtain ⟨h1, o, h2, h3, p, -, -, h4⟩ := part_nonneg (K := K) hT hN hx h
        exact ⟨_, prints_num h1, o, by rw [evalAst, h2], fun z => (h4 z).1⟩
      · obtain ⟨h1, o, h2, h3, p, h5, -, h4⟩ := part_nonneg (K := K) hT hN (hT.neg x hx) (by linarith)
        rw [hT.negativePart x hx h]
        refine ⟨_, prints_neg h1, p, by rw [evalAst, evalAst, h2, ev_ok, h5], fun z => ?_⟩
        rw [(h4 z).2, neg_neg]
    obtain ⟨a, pa, o, ea, oa⟩ := real
    rcases le_or_gt 0 y with h | h
    · obtain ⟨h1, h2⟩ := im y hy h
      rw [if_neg (not_lt.mpr h)]
      exact ⟨_, prints_add pa h1, by rw [evalAst, ea, ev_ok, h2, ev_ok, oa]⟩
    · obtain ⟨h1, h2⟩ := im (-y) (hT.neg y hy) (by linarith)
      rw [if_pos h, hT.negativePart y hy h]
      refine ⟨_, prints_sub pa h1, ?_⟩
      rw [evalAst, ea, ev_ok, h2, ev_ok, Obj.neg, ev_ok, oa, neg, neg_mul, neg_neg]

/-- the parts of a number can be represented as floats -/
def Rep (F : α → Prop) (N : Numbers α K) (z : K) : Prop := F (N.re z) ∧ F (N.im z)

theorem denotes_parts (hT : T.Ok F) (hN : N.Hom) (hL : N.Lawful) {z : K} (hz : Rep F N z) :
    Denotes T N E n (reprComplex T (N.re z) (N.im z)) (.ok (.complex z)) := by
  have e := denotes_complex (E := E) (n := n) hT hN hz.1 hz.2
  rwa [add_comm, hL.parts] at e

theorem denotes_number (hT : T.Ok F) (hN : N.Hom) (hL : N.Lawful) {z : K} (hz : Rep F N z) :
    Denotes T N E n (reprNumber T N z) (.ok (numberObj N z)) := by
  unfold reprNumber numberObj
  cases N.isComplex z with
  | true => exact denotes_parts hT hN hL hz
  | false => exact denotes_float hT hz.1

end Ordered

end Filter
end Verif
