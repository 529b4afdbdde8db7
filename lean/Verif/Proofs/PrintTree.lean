import Verif.Proofs.Print

/-!
# Reading back a printed tree
-/

namespace Fmr

section
variable {p : StrWorld}

theorem Node.All.value {P : TState → Prop} {n : Node} (h : n.All P) : P n.value := by
  cases h with
  | mk h _ => exact h

/-- the number of blanks at the beginning -/
def lead (l : List Char) : Nat := (l.takeWhile (· == ' ')).length

theorem lead_blanks (k : Nat) {c : Char} (hc : c ≠ ' ') (l : List Char) :
    lead ((List.replicate k "  ".toList).flatten ++ c :: l) = 2 * k := by
  induction k with
  | zero => simp [lead, hc]
  | succ k ih =>
    have e : ("  " : String).toList = [' ', ' '] := by decide
    rw [e] at ih ⊢
    rw [List.replicate_succ, List.flatten_cons]
    unfold lead at ih ⊢
    simp only [List.cons_append, List.nil_append]
    rw [List.takeWhile_cons_of_pos (by rfl), List.takeWhile_cons_of_pos (by rfl)]
    simp only [List.length_cons]
    omega

/-- a state that is printed as one line that does not begin with a blank -/
structure Lined (p : StrWorld) (s : TState) : Prop where
  line : '\n' ∉ s.string p
  head : ∃ c l, s.string p = c :: l ∧ c ≠ ' '

theorem print_lead {level : Nat} {n : Node} (h : n.All (Lined p)) (r : List Char) :
    lead (n.print p level ++ r) = 2 * level := by
  cases h with
  | mk hv _ =>
    obtain ⟨c, l, hc, hne⟩ := hv.head
    rw [Node.print, hc]
    simp only [List.append_assoc, List.cons_append]
    exact lead_blanks _ hne _

theorem print_ne_nil {level : Nat} (n : Node) (r : List Char) : n.print p level ++ r ≠ [] := by
  cases n with
  | mk v cs => rw [Node.print]; simp

/-- what follows the nodes of a level -/
def Below (level : Nat) (r : List Char) : Prop := r = [] ∨ lead r < 2 * level

theorem below_printL {level : Nat} {l : List Node} {r : List Char} (hl : Node.Alls (Lined p) l) (h : Below level r) :
    Below (level + 1) (printL p level l ++ r) := by
  cases hl with
  | nil =>
    rw [printL, List.nil_append]
    rcases h with h | h
    · exact .inl h
    · exact .inr (by omega)
  | cons ha _ =>
    rw [printL, List.append_assoc]
    exact .inr (by rw [print_lead ha]; omega)

mutual
theorem print_same : ∀ (a b : Node) {level : Nat} {r s : List Char}, a.All (Lined p) → b.All (Lined p) →
    Below (level + 1) r → Below (level + 1) s → a.print p level ++ r = b.print p level ++ s →
    Node.Same (fun x y => x.string p = y.string p) a b ∧ r = s
  | .mk v cs, .mk v' cs', level, r, s, ha, hb, hr, hs, h => by
    cases ha with
    | mk hv hcs =>
      cases hb with
      | mk hv' hcs' =>
        rw [Node.print, Node.print] at h
        simp only [List.append_assoc, List.cons_append] at h
        have h := List.append_cancel_left h
        obtain ⟨e, h⟩ := sep_prefix hv.line hv'.line h
        obtain ⟨e2, h⟩ := printL_same cs cs' hcs hcs' hr hs h
        exact ⟨.mk e e2, h⟩
theorem printL_same : ∀ (as bs : List Node) {level : Nat} {r s : List Char}, Node.Alls (Lined p) as →
    Node.Alls (Lined p) bs → Below level r → Below level s → printL p level as ++ r = printL p level bs ++ s →
    Node.Sames (fun x y => x.string p = y.string p) as bs ∧ r = s
  | [], [], _, r, s, _, _, _, _, h => by
    rw [printL, List.nil_append, List.nil_append] at h
    exact ⟨.nil, h⟩
  | [], b :: bs, level, r, s, _, hb, hr, _, h => by
    exfalso
    cases hb with
    | cons hb _ =>
      rw [printL, printL, List.nil_append, List.append_assoc] at h
      rcases hr with rfl | hr
      · exact print_ne_nil _ _ h.symm
      · rw [h, print_lead hb] at hr; omega
  | a :: as, [], level, r, s, ha, _, _, hs, h => by
    exfalso
    cases ha with
    | cons ha _ =>
      rw [printL, printL, List.nil_append, List.append_assoc] at h
      rcases hs with rfl | hs
      · exact print_ne_nil _ _ h
      · rw [← h, print_lead ha] at hs; omega
  | a :: as, b :: bs, level, r, s, ha, hb, hr, hs, h => by
    cases ha with
    | cons ha has =>
      cases hb with
      | cons hb hbs =>
        rw [printL, printL, List.append_assoc, List.append_assoc] at h
        obtain ⟨e, h⟩ := print_same a b ha hb (below_printL has hr) (below_printL hbs hs) h
        obtain ⟨e2, h⟩ := printL_same as bs has hbs hr hs h
        exact ⟨.cons e e2, h⟩
end

mutual
theorem Node.Same.imp {R S : TState → TState → Prop} {P : TState → Prop} (hRS : ∀ x y, P x → P y → R x y → S x y) :
    ∀ {a b : Node}, a.All P → b.All P → a.Same R b → a.Same S b
  | .mk _ _, .mk _ _, .mk ha has, .mk hb hbs, .mk h hs => .mk (hRS _ _ ha hb h) (Node.Sames.imp hRS has hbs hs)
theorem Node.Sames.imp {R S : TState → TState → Prop} {P : TState → Prop} (hRS : ∀ x y, P x → P y → R x y → S x y) :
    ∀ {a b : List Node}, Node.Alls P a → Node.Alls P b → Node.Sames R a b → Node.Sames S a b
  | [], [], _, _, _ => .nil
  | _ :: _, _ :: _, .cons ha has, .cons hb hbs, .cons h hs => .cons (Node.Same.imp hRS ha hb h) (Node.Sames.imp hRS has hbs hs)
end

mutual
theorem same_print {level : Nat} : ∀ {a b : Node}, Node.Same (fun x y => x.string p = y.string p) a b →
    a.print p level = b.print p level
  | .mk _ _, .mk _ _, .mk h hs => by rw [Node.print, Node.print, h, sames_print hs]
theorem sames_print {level : Nat} : ∀ {a b : List Node}, Node.Sames (fun x y => x.string p = y.string p) a b →
    printL p level a = printL p level b
  | [], [], _ => rfl
  | _ :: _, _ :: _, .cons h hs => by rw [printL, printL, same_print h, sames_print hs]
end

/-! ### `String` of a node -/

/-- what follows a node is not the list of its children -/
def NoKids (r : List Char) : Prop := ∀ l, r ≠ ' ' :: '[' :: l

theorem node_string_head {n : Node} (h : n.All (TState.Printable p)) : ∃ c l, n.string p = c :: l ∧ c ≠ '[' := by
  cases h with
  | @mk v cs hv _ =>
    obtain ⟨c, l, hc, c1, c2, c3, c4⟩ := string_head hv
    refine ⟨c, _, by rw [Node.string, hc, List.cons_append], ?_⟩
    cases ht : v.term.type with
    | eof => exact absurd ht hv.term.kind
    | nonterminal => rw [c1 ht]; decide
    | terminal => rw [c2 ht]; decide
    | any => rw [(c3 ht).1]; decide
    | list => rw [(c4 ht).1]; decide

theorem stringL_cons_noKids {as : List Node} (h : Node.Alls (TState.Printable p) as) (r : List Char) :
    NoKids ((if as = [] then [] else ' ' :: stringL p as) ++ ']' :: r) := by
  cases h with
  | nil => intro l e; simp at e
  | @cons a as ha _ =>
    intro l e
    rw [if_neg (by simp), stringL] at e
    obtain ⟨c, l', hc, hne⟩ := node_string_head ha
    rw [hc] at e
    simp only [List.cons_append, List.cons.injEq, true_and] at e
    exact hne e.1

mutual
theorem string_same : ∀ (a b : Node) {r s : List Char}, a.All (TState.Printable p) → b.All (TState.Printable p) →
    NoKids r → NoKids s → a.string p ++ r = b.string p ++ s → Node.Same (TState.Alike (fString p)) a b ∧ r = s
  | .mk v cs, .mk v' cs', r, s, ha, hb, hr, hs, h => by
    cases ha with
    | mk hv hcs =>
      cases hb with
      | mk hv' hcs' =>
        rw [Node.string, Node.string, List.append_assoc, List.append_assoc] at h
        obtain ⟨e, _, h⟩ := string_prefix hv hv' h
        by_cases h1 : cs = [] <;> by_cases h2 : cs' = []
        · subst h1 h2
          simp only [if_true, List.nil_append] at h
          exact ⟨.mk e .nil, h⟩
        · rw [if_pos h1, if_neg h2] at h
          exact absurd h (hr _)
        · rw [if_neg h1, if_pos h2] at h
          exact absurd h.symm (hs _)
        · rw [if_neg h1, if_neg h2] at h
          simp only [List.append_assoc] at h
          have h := List.append_cancel_left h
          obtain ⟨e2, h⟩ := stringL_same cs cs' hcs hcs' h1 h2 h
          exact ⟨.mk e e2, h⟩
theorem stringL_same : ∀ (as bs : List Node) {r s : List Char}, Node.Alls (TState.Printable p) as →
    Node.Alls (TState.Printable p) bs → as ≠ [] → bs ≠ [] →
    stringL p as ++ (']' :: r) = stringL p bs ++ (']' :: s) → Node.Sames (TState.Alike (fString p)) as bs ∧ r = s
  | [], _, _, _, _, _, h1, _, _ => absurd rfl h1
  | _ :: _, [], _, _, _, _, _, h2, _ => absurd rfl h2
  | a :: as, b :: bs, r, s, ha, hb, _, _, h => by
    cases ha with
    | cons ha has =>
      cases hb with
      | cons hb hbs =>
        rw [stringL, stringL, List.append_assoc, List.append_assoc] at h
        obtain ⟨e, h⟩ := string_same a b ha hb (stringL_cons_noKids has r) (stringL_cons_noKids hbs s) h
        by_cases h1 : as = [] <;> by_cases h2 : bs = []
        · subst h1 h2
          simp only [if_true, List.nil_append, List.cons.injEq, true_and] at h
          exact ⟨.cons e .nil, h⟩
        · rw [if_pos h1, if_neg h2] at h
          simp at h
        · rw [if_neg h1, if_pos h2] at h
          simp at h
        · rw [if_neg h1, if_neg h2] at h
          simp only [List.cons_append, List.cons.injEq, true_and] at h
          obtain ⟨e2, h⟩ := stringL_same as bs has hbs h1 h2 h
          exact ⟨.cons e e2, h⟩
end

/-! ### the chart -/

theorem lines_prefix {as bs : List (List Char)} (ha : ∀ a ∈ as, '\n' ∉ a ∧ a ≠ []) (hb : ∀ b ∈ bs, '\n' ∉ b ∧ b ≠ [])
    {r s : List Char} (h : (as.flatMap fun a => a ++ ['\n']) ++ '\n' :: r = (bs.flatMap fun a => a ++ ['\n']) ++ '\n' :: s) :
    as = bs ∧ r = s := by
  induction as generalizing bs with
  | nil =>
    cases bs with
    | nil => exact ⟨rfl, by simpa using h⟩
    | cons b bs =>
      exfalso
      obtain ⟨h1, h2⟩ := hb b (by simp)
      obtain ⟨c, l, rfl⟩ := List.exists_cons_of_ne_nil h2
      simp only [List.flatMap_nil, List.nil_append, List.flatMap_cons, List.cons_append, List.cons.injEq] at h
      exact h1 (by rw [h.1]; simp)
  | cons a as ih =>
    obtain ⟨h1, h2⟩ := ha a (by simp)
    cases bs with
    | nil =>
      exfalso
      obtain ⟨c, l, rfl⟩ := List.exists_cons_of_ne_nil h2
      simp only [List.flatMap_nil, List.nil_append, List.flatMap_cons, List.cons_append, List.cons.injEq] at h
      exact h1 (by simp [h.1])
    | cons b bs =>
      simp only [List.flatMap_cons, List.append_assoc, List.cons_append, List.nil_append] at h
      obtain ⟨e, h⟩ := sep_prefix h1 (hb b (by simp)).1 h
      obtain ⟨e2, h⟩ := ih (fun x hx => ha x (by simp [hx])) (fun x hx => hb x (by simp [hx])) h
      exact ⟨by rw [e, e2], h⟩

/-- the line above the states of a column -/
def headLine (tok : Token → List Char) (i : Nat) (t : Option Token) : List Char :=
  match i, t with
  | 0, _ => "[0] ''".toList
  | _, none => []
  | i + 1, some t => '[' :: ((toString (i + 1)).toList ++ ("] '".toList ++ (tok t ++ ("' position:".toList ++
        spanText t.startByte t.endByte))))

theorem columnString_eq {tok : Token → List Char} {i : Nat} {t : Option Token} {states : List TState}
    (h : i = 0 ∨ t.isSome) : columnString p tok i t states =
      headLine tok i t ++ '\n' :: ("=======================================".toList ++
        '\n' :: (states.map (TState.string p)).flatMap fun a => a ++ ['\n']) := by
  unfold columnString headLine
  rw [List.flatMap_map]
  have e : "=======================================\n".toList = "=======================================".toList ++ ['\n'] := by
    decide
  have e0 : "[0] ''\n".toList = "[0] ''".toList ++ ['\n'] := by decide
  rw [e]
  split
  · rw [e0]; simp only [List.append_assoc, List.cons_append, List.nil_append]
  · rename_i hi
    rcases h with h | h
    · exact absurd h hi
    · cases h
  · simp only [List.append_assoc, List.cons_append, List.nil_append]

theorem columnsString_prefix {tok : Token → List Char} {tokens tokens' : List Token} {cs cs' : List (List TState)} {i : Nat}
    (hl : i + cs.length ≤ tokens.length + 1) (hl' : i + cs'.length ≤ tokens'.length + 1)
    (hh : ∀ i t, '\n' ∉ headLine tok i t)
    (hc : ∀ c ∈ cs, ∀ s ∈ c, Lined p s) (hc' : ∀ c ∈ cs', ∀ s ∈ c, Lined p s)
    (h : columnsString p tok tokens i cs = columnsString p tok tokens' i cs') :
    cs.map (fun c => c.map (TState.string p)) = cs'.map (fun c => c.map (TState.string p)) := by
  induction cs generalizing cs' i with
  | nil =>
    cases cs' with
    | nil => rfl
    | cons c' cs' => rw [columnsString, columnsString] at h; simp at h
  | cons c cs ih =>
    cases cs' with
    | nil => rw [columnsString, columnsString] at h; simp at h
    | cons c' cs' =>
      simp only [List.length_cons] at hl hl'
      have hs : ∀ T : List Token, i + 1 ≤ T.length + 1 → i = 0 ∨ (if i = 0 then none else T[i - 1]?).isSome := by
        intro T hT
        by_cases h0 : i = 0
        · exact .inl h0
        · right
          rw [if_neg h0, List.getElem?_eq_getElem (by omega)]
          rfl
      rw [columnsString, columnsString, columnString_eq (hs _ (by omega)), columnString_eq (hs _ (by omega))] at h
      simp only [List.append_assoc, List.cons_append] at h
      obtain ⟨_, h⟩ := sep_prefix (hh _ _) (hh _ _) h
      have h := List.append_cancel_left h
      simp only [List.cons.injEq, true_and] at h
      have hln : ∀ c : List TState, (∀ s ∈ c, Lined p s) → ∀ a ∈ c.map (TState.string p), '\n' ∉ a ∧ a ≠ [] := by
        intro c hc a ha
        obtain ⟨s, hs, rfl⟩ := List.mem_map.1 ha
        refine ⟨(hc s hs).line, ?_⟩
        obtain ⟨x, l, e, _⟩ := (hc s hs).head
        rw [e]; simp
      obtain ⟨e, h⟩ := lines_prefix (hln c (hc c (by simp))) (hln c' (hc' c' (by simp))) h
      have := ih (by omega) (by omega) (fun x hx => hc x (by simp [hx])) (fun x hx => hc' x (by simp [hx])) h
      simp only [List.map_cons]
      rw [e, this]

end

end Fmr
