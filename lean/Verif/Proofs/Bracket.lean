import Verif.Spec.Bracket
import Verif.Proofs.Expr
import Verif.Proofs.PrintInj

/-!
# Lemmas on Bracketed
-/

namespace Fmr

theorem hasPrefix_iff {s pre : String} : hasPrefix s pre = true ↔ pre.toList <+: s.toList := by
  simp [hasPrefix]

theorem allTerminal_iff {cs : List Node} : allTerminal cs = true ↔ FlatKids cs := by
  induction cs with
  | nil => simp [allTerminal, FlatKids]
  | cons c cs ih =>
    simp only [allTerminal, FlatKids, List.forall_mem_cons]
    split
    · next h => rw [ih]; simp [h, FlatKids]
    · next h =>
      split
      · next h2 =>
        rw [ih]
        simp only [Bool.or_eq_true, hasPrefix_iff] at h2
        simp only [h, false_or, h2, true_and]; rfl
      · next h2 =>
        simp only [Bool.or_eq_true, hasPrefix_iff] at h2
        simp only [h, false_or, h2, false_and, Bool.false_eq_true]

theorem gamma_eq : gammaRule = "ɣ" := rfl

theorem nodeTerm_ne {v : TState} (h : v.term.value ≠ "ɣ") : nodeTerm v = .ok v.term := by
  rw [nodeTerm, if_neg (show ¬ v.term.value = gammaRule from h)]

theorem intercalate_kids {isPrint : Char → Bool} : ∀ {ss : List String} {bs : List BTree},
    List.Forall₂ (fun (s : String) (b : BTree) => s.toList = b.print isPrint) ss bs →
    (" ".intercalate ss).toList = printKids isPrint bs
  | _, _, .nil => by simp [printKids]
  | _, _, .cons h .nil => by simp [printKids, h]
  | _, _, .cons h (.cons h' ht) => by
    have ih := intercalate_kids (.cons h' ht)
    rw [String.toList_intercalate] at ih
    simp [printKids, h, ← ih]

mutual
theorem bracketed_ok (w : NodeWorld) (p : Parsed) : ∀ (n : Node) (s : String),
    n.bracketed w p = .ok s ↔ ∃ b, BracketOf w p n b ∧ s.toList = b.print w.isPrint
  | .mk v cs, s => by
    by_cases hg : v.term.value = "ɣ"
    · rw [Node.bracketed.eq_def]
      simp only []
      rw [if_pos (show v.term.value = gammaRule from hg)]
      match cs with
      | [] =>
        simp only [reduceCtorEq, false_iff]
        rintro ⟨b, hb, _⟩
        cases hb with
        | start h1 h2 h3 => simp [Node.children] at h2
        | flat h1 h2 h3 => exact h1 hg
        | node h1 h2 h3 => exact h1 hg
      | c :: cs =>
        simp only [bracketed_ok w p c]
        constructor
        · rintro ⟨b, hb, hs⟩; exact ⟨b, .start hg rfl hb, hs⟩
        · rintro ⟨b, hb, hs⟩
          cases hb with
          | start h1 h2 h3 =>
            simp [Node.children] at h2
            exact ⟨b, h2 ▸ h3, hs⟩
          | flat h1 h2 h3 => exact absurd hg h1
          | node h1 h2 h3 => exact absurd hg h1
    · have hg' : ¬ v.term.value = gammaRule := hg
      rw [Node.bracketed.eq_def]
      simp only []
      rw [if_neg hg', nodeTerm_ne hg, Out.bind_ok]
      by_cases ha : allTerminal cs = true
      · rw [if_pos ha]
        simp only [Out.bind_eq_ok, Out.pure_eq, Out.ok.injEq]
        constructor
        · rintro ⟨o, ho, rfl⟩
          refine ⟨_, .flat hg (allTerminal_iff.1 ha) ho, ?_⟩
          simp [BTree.print, NodeWorld.quoteBytes, Node.value]
        · rintro ⟨b, hb, hs⟩
          cases hb with
          | start h1 h2 h3 => exact absurd h1 hg
          | flat h1 h2 h3 =>
            refine ⟨_, h3, String.toList_inj.1 ?_⟩
            rw [hs]
            simp [BTree.print, NodeWorld.quoteBytes, Node.value]
          | node h1 h2 h3 => exact absurd (allTerminal_iff.1 ha) h2
      · rw [if_neg ha]
        simp only [Out.bind_eq_ok, Out.pure_eq, Out.ok.injEq]
        constructor
        · rintro ⟨ss, hss, rfl⟩
          obtain ⟨bs, hbs, hp⟩ := (bracketedL_ok w p cs ss).1 hss
          refine ⟨_, .node hg (fun h => ha (allTerminal_iff.2 h)) hbs, ?_⟩
          have := intercalate_kids hp
          rw [String.toList_intercalate] at this
          simp [BTree.print, Node.value, ← this]
        · rintro ⟨b, hb, hs⟩
          cases hb with
          | start h1 h2 h3 => exact absurd h1 hg
          | flat h1 h2 h3 => exact absurd (allTerminal_iff.2 h2) ha
          | @node _ bs h1 h2 h3 =>
            have hex : ∃ ss : List String, List.Forall₂ (fun (s : String) (b : BTree) =>
                s.toList = b.print w.isPrint) ss bs := by
              refine ⟨bs.map (fun b => String.ofList (b.print w.isPrint)), ?_⟩
              rw [List.forall₂_map_left_iff, List.forall₂_same]
              intro b _; simp
            obtain ⟨ss, hss⟩ := hex
            refine ⟨ss, (bracketedL_ok w p cs ss).2 ⟨bs, h3, hss⟩, String.toList_inj.1 ?_⟩
            rw [hs]
            have := intercalate_kids hss
            rw [String.toList_intercalate] at this
            simp [BTree.print, Node.value, ← this]
theorem bracketedL_ok (w : NodeWorld) (p : Parsed) : ∀ (cs : List Node) (ss : List String),
    bracketedL w p cs = .ok ss ↔ ∃ bs, BracketsOf w p cs bs ∧
      List.Forall₂ (fun (s : String) (b : BTree) => s.toList = b.print w.isPrint) ss bs
  | [], ss => by
    simp only [bracketedL, Out.ok.injEq]
    constructor
    · rintro rfl; exact ⟨[], .nil, .nil⟩
    · rintro ⟨bs, hbs, h⟩
      cases hbs; cases h; rfl
  | c :: cs, ss => by
    simp only [bracketedL, Out.bind_eq_ok, Out.pure_eq, Out.ok.injEq, bracketed_ok w p c, bracketedL_ok w p cs]
    constructor
    · rintro ⟨s, ⟨b, hb, hs⟩, ss', ⟨bs, hbs, hss⟩, rfl⟩
      exact ⟨b :: bs, .cons hb hbs, .cons hs hss⟩
    · rintro ⟨bs, hbs, h⟩
      cases hbs with
      | cons hb hbs =>
        cases h with
        | cons hs hss => exact ⟨_, ⟨_, hb, hs⟩, _, ⟨_, hbs, hss⟩, rfl⟩
end

/-! ## balance -/

theorem WellBracketed.append {a b : List Char} (ha : WellBracketed a) (hb : WellBracketed b) :
    WellBracketed (a ++ b) := by
  induction ha with
  | nil => exact hb
  | plain h1 h2 h3 _ ih => exact .plain h1 h2 h3 ih
  | @quoted q l hq _ ih =>
    have := WellBracketed.quoted hq ih
    simpa using this
  | @bracket x l h1 _ _ ih =>
    have := WellBracketed.bracket h1 ih
    simpa using this

theorem WellBracketed.word {l : List Char} (h : ∀ c ∈ l, c ≠ '[' ∧ c ≠ ']' ∧ c ≠ '"') : WellBracketed l := by
  induction l with
  | nil => exact .nil
  | cons c l ih =>
    obtain ⟨h1, h2, h3⟩ := h c (by simp)
    exact .plain h1 h2 h3 (ih (fun c hc => h c (by simp [hc])))

theorem QuotedBody.append {a b : List Char} (ha : QuotedBody a) (hb : QuotedBody b) : QuotedBody (a ++ b) := by
  induction ha with
  | nil => exact hb
  | plain h1 h2 _ ih => exact .plain h1 h2 ih
  | esc _ ih => exact .esc ih

theorem hexChar_ok : ∀ n, n < 16 → hexChar n ≠ '"' ∧ hexChar n ≠ '\\' := by decide

theorem QuotedBody.hex (k n : Nat) : QuotedBody (hexDigits k n) := by
  induction k generalizing n with
  | zero => exact .nil
  | succ k ih =>
    have := hexChar_ok (n % 16) (Nat.mod_lt _ (by decide))
    exact (ih _).append (.plain this.1 this.2 .nil)

theorem QuotedBody.escape (isPrint : Char → Bool) (g : GoRune) : QuotedBody (escapeGo isPrint g) := by
  cases g with
  | byte b => exact .esc (.hex _ _)
  | rune c =>
    simp only [escapeGo, escapeRune]
    split
    · exact .esc .nil
    · next h =>
      simp only [not_or] at h
      split
      · exact .plain h.1 h.2 .nil
      · repeat' split
        all_goals first | exact .esc .nil | exact .esc (.hex _ _)

theorem quoted_body (isPrint : Char → Bool) (l : List GoRune) : QuotedBody (l.flatMap (escapeGo isPrint)) := by
  induction l with
  | nil => exact .nil
  | cons g l ih => exact (QuotedBody.escape isPrint g).append ih

/-- labels without brackets and quotes -/
def NoBrackets (l : String) : Prop := ∀ c ∈ l.toList, c ≠ '[' ∧ c ≠ ']' ∧ c ≠ '"'

mutual
theorem print_balanced (isPrint : Char → Bool) : ∀ b : BTree, b.Labels NoBrackets →
    WellBracketed (b.print isPrint)
  | .flat l t, h => by
    have h1 : WellBracketed (quoteRunes isPrint t) := by
      have := WellBracketed.quoted (quoted_body isPrint t) .nil
      simpa [quoteRunes] using this
    have := WellBracketed.bracket ((WellBracketed.word h).append (WellBracketed.plain (c := ' ') (by decide) (by decide) (by decide) h1))
      .nil
    simpa [BTree.print] using this
  | .node l ks, h => by
    have h1 := printKids_balanced isPrint ks h.2
    have := WellBracketed.bracket ((WellBracketed.word h.1).append (WellBracketed.plain (c := ' ') (by decide) (by decide) (by decide) h1))
      .nil
    simpa [BTree.print] using this
theorem printKids_balanced (isPrint : Char → Bool) : ∀ ks : List BTree, kidsLabels NoBrackets ks →
    WellBracketed (printKids isPrint ks)
  | [], _ => .nil
  | [k], h => print_balanced isPrint k h.1
  | k :: k' :: ks, h => by
    have h1 := print_balanced isPrint k h.1
    have h2 := printKids_balanced isPrint (k' :: ks) h.2
    exact h1.append (.plain (by decide) (by decide) (by decide) h2)
end

/-! ## faithfulness -/

mutual
/-- the texts come from decoding UTF-8 -/
def BTree.Decoded : BTree → Prop
  | .flat _ t => ∀ g ∈ t, g.OK
  | .node _ ks => kidsDecoded ks
def kidsDecoded : List BTree → Prop
  | [] => True
  | k :: ks => k.Decoded ∧ kidsDecoded ks
end

theorem label_split : ∀ {u v x y : List Char}, ' ' ∉ u → ' ' ∉ v → u ++ ' ' :: x = v ++ ' ' :: y → u = v ∧ x = y
  | [], [], _, _, _, _, h => by simpa using h
  | [], c :: v, x, y, _, hv, h => by
    simp at h; exact absurd h.1 (fun e => hv (by simp [← e]))
  | c :: u, [], x, y, hu, _, h => by
    simp at h; exact absurd h.1 (fun e => hu (by simp [e]))
  | c :: u, d :: v, x, y, hu, hv, h => by
    simp only [List.cons_append, List.cons.injEq] at h
    obtain ⟨h1, h2⟩ := label_split (fun hc => hu (by simp [hc])) (fun hc => hv (by simp [hc])) h.2
    exact ⟨by rw [h.1, h1], h2⟩

/-- labels without blanks -/
def NoBlank (l : String) : Prop := ' ' ∉ l.toList

theorem print_cons (isPrint : Char → Bool) (b : BTree) : ∃ t, b.print isPrint = '[' :: t := by
  cases b with
  | flat l t => exact ⟨_, by rw [BTree.print]⟩
  | node l ks => exact ⟨_, by rw [BTree.print]⟩

/-- what follows the first sub-bracketing -/
def kidsRest (isPrint : Char → Bool) (r : List Char) : List BTree → List Char
  | [] => ']' :: r
  | k :: ks => ' ' :: (printKids isPrint (k :: ks) ++ ']' :: r)

theorem kids_toList (isPrint : Char → Bool) (k : BTree) (ks : List BTree) (r : List Char) :
    printKids isPrint (k :: ks) ++ ']' :: r = k.print isPrint ++ kidsRest isPrint r ks := by
  cases ks <;> simp [printKids, kidsRest]

mutual
theorem btree_prefix (isPrint : Char → Bool) (a b : BTree) (r t : List Char) (ha : a.Labels NoBlank)
    (hb : b.Labels NoBlank) (da : a.Decoded) (db : b.Decoded)
    (h : a.print isPrint ++ r = b.print isPrint ++ t) : a = b ∧ r = t := by
  cases a with
  | flat l x =>
    cases b with
    | flat l' x' =>
      simp only [BTree.print, List.cons_append, List.append_assoc, List.cons.injEq, true_and] at h
      obtain ⟨h1, h2⟩ := label_split ha hb h
      obtain ⟨h3, h4⟩ := quoteRunes_prefix isPrint da db h2
      simp at h4
      exact ⟨by rw [String.toList_inj.1 h1, h3], h4⟩
    | node l' ks =>
      simp only [BTree.print, List.cons_append, List.append_assoc, List.cons.injEq, true_and] at h
      obtain ⟨h1, h2⟩ := label_split ha hb.1 h
      cases ks with
      | nil => simp [printKids, quoteRunes] at h2
      | cons k ks =>
        simp only [kids_toList] at h2
        obtain ⟨u, hu⟩ := print_cons isPrint k
        simp [hu, quoteRunes] at h2
  | node l ks =>
    cases b with
    | flat l' x' =>
      simp only [BTree.print, List.cons_append, List.append_assoc, List.cons.injEq, true_and] at h
      obtain ⟨h1, h2⟩ := label_split ha.1 hb h
      cases ks with
      | nil => simp [printKids, quoteRunes] at h2
      | cons k ks =>
        simp only [kids_toList] at h2
        obtain ⟨u, hu⟩ := print_cons isPrint k
        simp [hu, quoteRunes] at h2
    | node l' ks' =>
      simp only [BTree.print, List.cons_append, List.append_assoc, List.cons.injEq, true_and] at h
      obtain ⟨h1, h2⟩ := label_split ha.1 hb.1 h
      obtain ⟨h3, h4⟩ := kids_prefix isPrint ks ks' r t ha.2 hb.2 da db h2
      exact ⟨by rw [String.toList_inj.1 h1, h3], h4⟩
  termination_by sizeOf a
theorem kids_prefix (isPrint : Char → Bool) (as bs : List BTree) (r t : List Char)
    (ha : kidsLabels NoBlank as) (hb : kidsLabels NoBlank bs) (da : kidsDecoded as) (db : kidsDecoded bs)
    (h : printKids isPrint as ++ ']' :: r = printKids isPrint bs ++ ']' :: t) : as = bs ∧ r = t := by
  match as, bs, ha, hb, da, db, h with
  | [], [], _, _, _, _, h => simpa [printKids] using h
  | [], b :: bs, _, _, _, _, h =>
    rw [kids_toList] at h
    obtain ⟨u, hu⟩ := print_cons isPrint b
    simp [hu, printKids] at h
  | a :: as, [], _, _, _, _, h =>
    rw [kids_toList] at h
    obtain ⟨u, hu⟩ := print_cons isPrint a
    simp [hu, printKids] at h
  | a :: as, b :: bs, ha, hb, da, db, h =>
    rw [kids_toList, kids_toList] at h
    obtain ⟨h1, h2⟩ := btree_prefix isPrint a b _ _ ha.1 hb.1 da.1 db.1 h
    have : (as = [] ∧ bs = [] ∧ r = t) ∨
        printKids isPrint as ++ ']' :: r = printKids isPrint bs ++ ']' :: t := by
      cases as with
      | nil => cases bs with
        | nil => simpa [kidsRest] using h2
        | cons b bs => simp [kidsRest] at h2
      | cons a as => cases bs with
        | nil => simp [kidsRest] at h2
        | cons b bs =>
          simp only [kidsRest, List.cons.injEq, true_and] at h2
          exact .inr h2
    rcases this with ⟨rfl, rfl, h3⟩ | h3
    · exact ⟨by rw [h1], h3⟩
    · obtain ⟨h4, h5⟩ := kids_prefix isPrint as bs r t ha.2 hb.2 da.2 db.2 h3
      exact ⟨by rw [h1, h4], h5⟩
  termination_by sizeOf as
end

end Fmr
