import Verif.Spec.Refine
import Verif.Proofs.Sound
import Verif.Proofs.Trees
import Verif.Props.Local
import Batteries.Data.List.Basic
import Mathlib.Data.List.Perm.Subperm
import Mathlib.Data.List.Nodup

/-!
# Proofs about refine: fresh names, run invariant, language
-/

namespace Fmr

/-! ## the name search -/

/-- the sequence of names tried -/
def candidate (tname : String) : Nat → String
  | 0 => tname
  | n + 1 => tname ++ "_" ++ toString n

theorem candidate_inj (tname : String) {a b : Nat} (h : candidate tname a = candidate tname b) : a = b := by
  have len : ∀ n, (candidate tname (n + 1)).length > tname.length := by
    intro n
    have : "_".length = 1 := rfl
    simp only [candidate, String.length_append]; omega
  rcases a with _ | a <;> rcases b with _ | b
  · rfl
  · have := len b; rw [← h] at this; simp [candidate] at this
  · have := len a; rw [h] at this; simp [candidate] at this
  · simp only [candidate] at h
    have h := congrArg String.toList h
    simp only [String.toList_append, List.append_cancel_left_eq] at h
    have h1 : Nat.toDigits 10 a = Nat.toDigits 10 b := by
      simpa [Nat.toString_eq_ofList_toDigits] using h
    have := congrArg (fun l => Nat.ofDigitChars 10 l 0) h1
    simp only [Nat.ofDigitChars_ten_toDigits] at this
    omega

theorem freshName_none {used : String → Bool} {tname : String} : ∀ {fuel n},
    freshName used tname fuel n (candidate tname n) = none → ∀ k < fuel, used (candidate tname (n + k)) = true
  | 0, n, _, k, hk => by omega
  | fuel + 1, n, h, k, hk => by
    rw [freshName] at h
    split at h
    · rename_i hu
      rcases k with _ | k
      · exact hu
      · have := freshName_none (fuel := fuel) (n := n + 1) h k (by omega)
        rwa [show n + 1 + k = n + (k + 1) by omega] at this
    · simp at h

theorem freshName_some {used : String → Bool} {tname : String} : ∀ {fuel n name r},
    freshName used tname fuel n name = some r → used r = false
  | 0, _, _, _, h => by simp [freshName] at h
  | fuel + 1, n, name, r, h => by
    rw [freshName] at h
    split at h
    · exact freshName_some h
    · rename_i hu; simp at h; subst h; simpa using hu

theorem freshName_first {used : String → Bool} {tname : String} {fuel n name r}
    (h : freshName used tname fuel n name = some r) (hu : used name = false) : r = name := by
  cases fuel with
  | zero => simp [freshName] at h
  | succ fuel =>
    rw [freshName, hu] at h
    simpa using h.symm

theorem freshName_prefix {used : String → Bool} {tname : String} : ∀ {fuel n name r},
    freshName used tname fuel n name = some r → tname.toList <+: name.toList → tname.toList <+: r.toList
  | 0, _, _, _, h, _ => by simp [freshName] at h
  | fuel + 1, n, name, r, h, hp => by
    rw [freshName] at h
    split at h
    · exact freshName_prefix h (by simp [String.toList_append, List.append_assoc])
    · simp at h; subst h; exact hp

theorem literalFold_prefix (w : RefineWorld) : ∀ (toks : List Token) (s : String), s.toList <+:
    (toks.foldl (fun s a => if a.type = .space ∨ a.type = .punct then s else s ++ "_" ++ w.ascii a.text) s).toList
  | [], _ => List.prefix_rfl
  | a :: toks, s => by
    rw [List.foldl_cons]
    refine List.IsPrefix.trans ?_ (literalFold_prefix w toks _)
    split
    · exact List.prefix_rfl
    · simp [String.toList_append, List.append_assoc]

/-- made names start with the prefix -/
theorem literalName_prefix (w : RefineWorld) (pre v : String) :
    (pre ++ "_t").toList <+: (literalName w pre v).toList := literalFold_prefix w _ _

theorem literalLoop_fold (w : RefineWorld) (m : Meta) : ∀ toks tname terms reg,
    (literalLoop w m toks tname terms reg).1 =
      toks.foldl (fun s a => if a.type = .space ∨ a.type = .punct then s else s ++ "_" ++ w.ascii a.text) tname
  | [], _, _, _ => by simp [literalLoop]
  | t :: toks, tname, terms, reg => by
    rw [literalLoop, List.foldl_cons]
    split
    · rename_i h; rw [literalLoop_fold]; simp [h]
    · rename_i h; rw [literalLoop_fold]; simp [h]

theorem freshName_mono {used : String → Bool} {tname : String} : ∀ {fuel n name r},
    freshName used tname fuel n name = some r → ∀ k, freshName used tname (fuel + k) n name = some r
  | 0, _, _, _, h, _ => by simp [freshName] at h
  | fuel + 1, n, name, r, h, k => by
    rw [show fuel + 1 + k = (fuel + k) + 1 by omega, freshName]
    rw [freshName] at h
    split at h
    · rename_i hu; rw [if_pos hu]; exact freshName_mono h k
    · rename_i hu; rw [if_neg hu]; exact h

/-- The search succeeds as soon as there are more rounds than used names. -/
theorem freshName_terminates {used : String → Bool} {l : List String} (hl : ∀ s, used s = true → s ∈ l)
    (tname : String) {fuel : Nat} (hf : l.length < fuel) : ∃ r, freshName used tname fuel 0 tname = some r := by
  rcases h : freshName used tname fuel 0 tname with _ | r
  · exfalso
    have h := freshName_none (n := 0) h
    simp only [Nat.zero_add] at h
    have hn : ((List.range fuel).map (candidate tname)).Nodup :=
      List.Nodup.map (fun a b hab => candidate_inj tname hab) List.nodup_range
    have hs : (List.range fuel).map (candidate tname) ⊆ l := by
      intro x hx
      obtain ⟨k, hk, rfl⟩ := List.mem_map.1 hx
      exact hl _ (h k (List.mem_range.1 hk))
    have := (List.subperm_of_subset hn hs).length_le
    simp at this
    omega
  · exact ⟨r, rfl⟩

/-! ## the loop over the tokens of a literal -/

theorem literalLoop_terms (w : RefineWorld) (m : Meta) : ∀ toks tname terms reg,
    (literalLoop w m toks tname terms reg).2.1 =
      terms ++ (toks.filter (fun a => a.type ≠ .space)).map
        (fun a => { value := a.text, type := .terminal, «meta» := m })
  | [], _, _, _ => by simp [literalLoop]
  | t :: toks, tname, terms, reg => by
    rw [literalLoop]
    split
    · rename_i h; rw [literalLoop_terms]; simp [h]
    · rename_i h; rw [literalLoop_terms]; simp [h]

theorem Registry.add_keep {reg : Registry} {t : Token} {k : String} {v : Token} (h : reg.lookup k = some v) :
    (reg.add t).lookup k = some v := by
  unfold Registry.add
  split
  · exact h
  · rename_i hn
    rw [mapSet_lookup]
    split
    · rename_i hk; subst hk; rw [hn] at h; simp at h
    · exact h

theorem Registry.add_has (reg : Registry) (t : Token) : ∃ v, (reg.add t).lookup t.text = some v := by
  unfold Registry.add
  split
  · rename_i v hv; exact ⟨v, hv⟩
  · exact ⟨t, by rw [mapSet_lookup]; simp⟩

theorem Registry.add_only {reg : Registry} {t : Token} {k : String} {v : Token}
    (h : (reg.add t).lookup k = some v) : reg.lookup k = some v ∨ (k = t.text ∧ v = t) := by
  unfold Registry.add at h
  split at h
  · exact .inl h
  · rw [mapSet_lookup] at h
    split at h
    · rename_i hk; simp at h; exact .inr ⟨hk, h.symm⟩
    · exact .inl h

theorem literalLoop_reg (w : RefineWorld) (m : Meta) : ∀ toks tname terms reg,
    (∀ k v, reg.lookup k = some v → (literalLoop w m toks tname terms reg).2.2.lookup k = some v) ∧
    (∀ a ∈ toks, a.type ≠ .space → ∃ v, (literalLoop w m toks tname terms reg).2.2.lookup a.text = some v) ∧
    (∀ k v, (literalLoop w m toks tname terms reg).2.2.lookup k = some v →
      reg.lookup k = some v ∨ (v.text = k ∧ v ∈ toks))
  | [], _, _, _ => by simp [literalLoop]
  | t :: toks, tname, terms, reg => by
    rw [literalLoop]
    split
    · rename_i h
      obtain ⟨h1, h2, h3⟩ := literalLoop_reg w m toks tname terms reg
      refine ⟨h1, ?_, ?_⟩
      · intro a ha hs
        rcases List.mem_cons.1 ha with rfl | ha
        · exact absurd h hs
        · exact h2 a ha hs
      · intro k v hv
        rcases h3 k v hv with hv | ⟨h4, h5⟩
        · exact .inl hv
        · exact .inr ⟨h4, by simp [h5]⟩
    · obtain ⟨h1, h2, h3⟩ := literalLoop_reg w m toks
        (if t.type ≠ .punct then tname ++ "_" ++ w.ascii t.text else tname)
        (terms ++ [{ value := t.text, type := .terminal, «meta» := m }]) (reg.add t)
      refine ⟨fun k v hv => h1 k v (Registry.add_keep hv), ?_, ?_⟩
      · intro a ha hs
        rcases List.mem_cons.1 ha with rfl | ha
        · obtain ⟨v, hv⟩ := Registry.add_has reg a
          exact ⟨v, h1 _ _ hv⟩
        · exact h2 a ha hs
      · intro k v hv
        rcases h3 k v hv with hv | ⟨h4, h5⟩
        · rcases Registry.add_only hv with hv | ⟨rfl, rfl⟩
          · exact .inl hv
          · exact .inr ⟨rfl, by simp⟩
        · exact .inr ⟨h4, by simp [h5]⟩

/-! ## invariant of a run -/

/-- one split literal -/
structure Entry where
  lit : String
  name : String
  «meta» : Meta
  hash : Nat
  body : RuleBody

structure RInv (w : RefineWorld) (pre : String) (g : Grammar) (reg0 : Registry) (st : RefineSt) (es : List Entry) : Prop where
  terminals : st.terminals = es.map (fun e => (e.lit, e.name))
  names : st.names = es.map Entry.name
  rules : st.terminalRules = es.map (fun e => { name := e.name, body := [(e.hash, e.body)] })
  litsNodup : (es.map Entry.lit).Nodup
  namesNodup : (es.map Entry.name).Nodup
  fresh : ∀ e ∈ es, g.rules.lookup e.name = none
  body : ∀ e ∈ es, e.body =
    { terms := readTerm w.annot { value := e.lit, type := .terminal, «meta» := e.meta }, f := none }
  annot : ∀ e ∈ es, ∃ toks, w.annot e.lit = some toks
  occurs : ∀ e ∈ es, g.Literal { value := e.lit, type := .terminal, «meta» := e.meta }
  named : NamesApart w pre g → ∀ e ∈ es, e.name = literalName w pre e.lit
  prefixed : ∀ e ∈ es, (pre ++ "_t").toList <+: e.name.toList
  regKeep : ∀ k v, reg0.lookup k = some v → st.reg.lookup k = some v
  regHas : ∀ e ∈ es, ∀ toks, w.annot e.lit = some toks → ∀ a ∈ toks, a.type ≠ .space →
    ∃ v, st.reg.lookup a.text = some v
  regOnly : ∀ k v, st.reg.lookup k = some v → reg0.lookup k = some v ∨
    (v.text = k ∧ ∃ e ∈ es, ∃ toks, w.annot e.lit = some toks ∧ v ∈ toks)

/-- how a term is rewritten -/
def TermRel (es : List Entry) (t t' : Term) : Prop :=
  (t.type ≠ .terminal ∧ t' = t) ∨
  (t.type = .terminal ∧ ∃ e ∈ es, e.lit = t.value ∧
    t' = { value := e.name, type := .nonterminal, «meta» := t.meta })

def BodyRel (es : List Entry) (e e' : Nat × RuleBody) : Prop :=
  e'.1 = e.1 ∧ e'.2.f = e.2.f ∧ List.Forall₂ (TermRel es) e.2.terms e'.2.terms

def RuleRel (es : List Entry) (e e' : String × Rule) : Prop :=
  e'.1 = e.1 ∧ e'.2.name = e.2.name ∧ List.Forall₂ (BodyRel es) e.2.body e'.2.body

theorem forall₂_imp {α β : Type} {R S : α → β → Prop} (h : ∀ a b, R a b → S a b) :
    ∀ {l : List α} {l' : List β}, List.Forall₂ R l l' → List.Forall₂ S l l'
  | _, _, .nil => .nil
  | _, _, .cons h1 h2 => .cons (h _ _ h1) (forall₂_imp h h2)

theorem TermRel.mono {es es' : List Entry} (h : es <+: es') {t t'} (r : TermRel es t t') :
    TermRel es' t t' := by
  rcases r with r | ⟨h1, e, he, h2⟩
  · exact .inl r
  · exact .inr ⟨h1, e, h.subset he, h2⟩

theorem BodyRel.mono {es es' : List Entry} (h : es <+: es') {t t'} (r : BodyRel es t t') :
    BodyRel es' t t' := ⟨r.1, r.2.1, forall₂_imp (fun _ _ => TermRel.mono h) r.2.2⟩

theorem RuleRel.mono {es es' : List Entry} (h : es <+: es') {t t'} (r : RuleRel es t t') :
    RuleRel es' t t' := ⟨r.1, r.2.1, forall₂_imp (fun _ _ => BodyRel.mono h) r.2.2⟩

theorem mapState_spec {σ α : Type} {f : σ → α → Out (σ × α)} {I : σ → List Entry → Prop}
    {R : List Entry → α → α → Prop} (hmono : ∀ {es es'}, es <+: es' → ∀ {a a'}, R es a a' → R es' a a') :
    ∀ {l : List α} {st st' es l'},
    (∀ a ∈ l, ∀ st es st' a', I st es → f st a = .ok (st', a') →
      ∃ es', es <+: es' ∧ I st' es' ∧ R es' a a') →
    I st es → mapState f st l = .ok (st', l') →
    ∃ es', es <+: es' ∧ I st' es' ∧ List.Forall₂ (R es') l l'
  | [], st, st', es, l', _, hi, h => by
    simp [mapState] at h
    obtain ⟨rfl, rfl⟩ := h
    exact ⟨es, List.prefix_rfl, hi, .nil⟩
  | a :: l, st, st', es, l', hf, hi, h => by
    simp only [mapState, Out.bind_eq_ok] at h
    obtain ⟨⟨st1, a1⟩, h1, ⟨st2, l2⟩, h2, h3⟩ := h
    simp at h3
    obtain ⟨rfl, rfl⟩ := h3
    obtain ⟨es1, p1, i1, r1⟩ := hf a (by simp) _ _ _ _ hi h1
    obtain ⟨es2, p2, i2, r2⟩ := mapState_spec hmono (fun a ha => hf a (by simp [ha])) i1 h2
    exact ⟨es2, p1.trans p2, i2, .cons (hmono p2 r1) r2⟩

theorem lookup_map_entry {es : List Entry} {v n : String}
    (h : (es.map (fun e => (e.lit, e.name))).lookup v = some n) : ∃ e ∈ es, e.lit = v ∧ e.name = n := by
  induction es with
  | nil => simp at h
  | cons e es ih =>
    rw [List.map_cons, List.lookup_cons] at h
    split at h
    · rename_i hv
      exact ⟨e, by simp, by simpa using (beq_iff_eq.1 hv).symm, by simpa using h⟩
    · obtain ⟨e', he', h'⟩ := ih h
      exact ⟨e', by simp [he'], h'⟩

theorem lookup_map_entry_none {es : List Entry} {v : String}
    (h : (es.map (fun e => (e.lit, e.name))).lookup v = none) : v ∉ es.map Entry.lit := by
  induction es with
  | nil => simp
  | cons e es ih =>
    rw [List.map_cons, List.lookup_cons] at h
    split at h
    · simp at h
    · rename_i hv
      simp only [List.map_cons, List.mem_cons, not_or]
      exact ⟨by simpa using hv, ih h⟩

theorem mapSet_new {ν : Type} {m : List (String × ν)} {k : String} {v : ν} (h : m.lookup k = none) :
    mapSet m k v = m ++ [(k, v)] := by
  induction m with
  | nil => simp [mapSet]
  | cons e m ih =>
    obtain ⟨k', v'⟩ := e
    rw [List.lookup_cons] at h
    split at h
    · simp at h
    · rename_i hv
      have : (k' == k) = false := by
        simp only [beq_eq_false_iff_ne] at hv ⊢
        exact fun e => hv e.symm
      rw [mapSet, this]
      simp [ih h]

theorem refineTerm_spec {w : RefineWorld} {pre : String} {g : Grammar} {reg0 : Registry} {fuel : Nat} {st st' : RefineSt}
    {es : List Entry} {t t' : Term} (hi : RInv w pre g reg0 st es) (hlit : t.type = .terminal → g.Literal t)
    (h : refineTerm w pre g.rules fuel st t = .ok (st', t')) :
    ∃ es', es <+: es' ∧ RInv w pre g reg0 st' es' ∧ TermRel es' t t' := by
  unfold refineTerm at h
  split at h
  · rename_i ht
    simp at h
    obtain ⟨rfl, rfl⟩ := h
    exact ⟨es, List.prefix_rfl, hi, .inl ⟨ht, rfl⟩⟩
  · rename_i ht
    have ht : t.type = .terminal := by simpa using ht
    split at h
    · rename_i n hn
      simp at h
      obtain ⟨rfl, rfl⟩ := h
      rw [hi.terminals] at hn
      obtain ⟨e, he, h1, h2⟩ := lookup_map_entry hn
      exact ⟨es, List.prefix_rfl, hi, .inr ⟨ht, e, he, h1, by rw [h2]⟩⟩
    · rename_i hn
      simp only [Out.bind_eq_ok, Out.ofErr_eq_ok] at h
      obtain ⟨toks, htoks, h⟩ := h
      have hterms := literalLoop_terms w t.meta toks (pre ++ "_t") [] st.reg
      have hreg := literalLoop_reg w t.meta toks (pre ++ "_t") [] st.reg
      rcases hl : literalLoop w t.meta toks (pre ++ "_t") [] st.reg with ⟨tname, terms, reg⟩
      rw [hl] at hterms h hreg
      simp only at hreg
      simp only [Out.ofFuel_eq_ok, Out.bind_eq_ok, Out.ofErr_eq_ok] at h
      obtain ⟨name, hname, hh, hhash, h⟩ := h
      simp at h
      obtain ⟨rfl, rfl⟩ := h
      have htname : tname = literalName w pre t.value := by
        have := literalLoop_fold w t.meta toks (pre ++ "_t") [] st.reg
        rw [hl] at this
        rw [literalName, htoks]
        exact this
      have hu := freshName_some hname
      simp only [Bool.or_eq_false_iff, Option.isSome_eq_false_iff, Option.isNone_iff_eq_none] at hu
      have htm := hi.terminals
      rw [htm] at hn
      have hnew := lookup_map_entry_none hn
      let e : Entry := ⟨t.value, name, t.meta, hh, { terms := terms, f := none }⟩
      have hname' : name ∉ es.map Entry.name := by
        have := hu.2
        rw [hi.names] at this
        simpa using this
      refine ⟨es ++ [e], List.prefix_append _ _, ⟨?_, ?_, ?_, ?_, ?_, ?_, ?_, ?_, ?_, ?_, ?_, ?_, ?_, ?_⟩,
        .inr ⟨ht, e, by simp, rfl, rfl⟩⟩
      · simp only [htm]; rw [mapSet_new hn]; simp [e]
      · simp [hi.names, e]
      · simp [hi.rules, e]
      · rw [List.map_append, List.nodup_append]
        refine ⟨hi.litsNodup, by simp, ?_⟩
        intro a ha b hb hab
        simp at hb; subst hb; subst hab; exact hnew ha
      · rw [List.map_append, List.nodup_append]
        refine ⟨hi.namesNodup, by simp, ?_⟩
        intro a ha b hb hab
        simp at hb; subst hb; subst hab; exact hname' ha
      · intro x hx
        rcases List.mem_append.1 hx with hx | hx
        · exact hi.fresh x hx
        · simp at hx; subst hx; exact hu.1
      · intro x hx
        rcases List.mem_append.1 hx with hx | hx
        · exact hi.body x hx
        · simp at hx; subst hx
          simp only [e, RuleBody.mk.injEq, and_true]
          have hterms : terms = _ := hterms
          rw [hterms]
          simp [readTerm, htoks]
      · intro x hx
        rcases List.mem_append.1 hx with hx | hx
        · exact hi.annot x hx
        · simp at hx; subst hx; exact ⟨toks, htoks⟩
      · intro x hx
        rcases List.mem_append.1 hx with hx | hx
        · exact hi.occurs x hx
        · simp at hx; subst hx
          have := hlit ht
          have heq : ({ value := e.lit, type := .terminal, «meta» := e.meta } : Term) = t := by
            simp [e, ← ht]
          rw [heq]; exact this
      · intro hap x hx
        rcases List.mem_append.1 hx with hx | hx
        · exact hi.named hap x hx
        · simp at hx; subst hx
          show name = _
          rw [← htname]
          refine freshName_first hname ?_
          simp only [Bool.or_eq_false_iff, Option.isSome_eq_false_iff, Option.isNone_iff_eq_none]
          refine ⟨by rw [htname]; exact hap.2 t (hlit ht), ?_⟩
          rw [hi.names, htname]
          simp only [List.contains_eq_mem, decide_eq_false_iff_not]
          intro hm
          obtain ⟨x, hx, hxn⟩ := List.mem_map.1 hm
          refine hnew (List.mem_map.2 ⟨x, hx, ?_⟩)
          exact hap.1 _ t (hi.occurs x hx) (hlit ht) ((hi.named hap x hx).symm.trans hxn)
      · intro x hx
        rcases List.mem_append.1 hx with hx | hx
        · exact hi.prefixed x hx
        · simp at hx; subst hx
          refine List.IsPrefix.trans ?_ (freshName_prefix hname List.prefix_rfl)
          rw [htname]
          exact literalName_prefix w pre t.value
      · intro k v hv
        have := hreg.1 k v (hi.regKeep k v hv)
        exact this
      · intro x hx toks' htoks' a ha hsp
        rcases List.mem_append.1 hx with hx | hx
        · obtain ⟨v, hv⟩ := hi.regHas x hx toks' htoks' a ha hsp
          exact ⟨v, hreg.1 _ _ hv⟩
        · simp at hx; subst hx
          simp only [e] at htoks'
          rw [htoks] at htoks'; simp at htoks'; subst htoks'
          exact hreg.2.1 a ha hsp
      · intro k v hv
        rcases hreg.2.2 k v hv with hv | ⟨h1, h2⟩
        · rcases hi.regOnly k v hv with hv | ⟨h1, x, hx, h2⟩
          · exact .inl hv
          · exact .inr ⟨h1, x, by simp [hx], h2⟩
        · exact .inr ⟨h1, e, by simp, toks, htoks, h2⟩

theorem refineBody_spec {w : RefineWorld} {pre : String} {g : Grammar} {reg0 : Registry} {fuel : Nat} {st st' : RefineSt}
    {es : List Entry} {e e' : Nat × RuleBody} (hi : RInv w pre g reg0 st es)
    (hlit : ∀ t ∈ e.2.terms, t.type = .terminal → g.Literal t)
    (h : refineBody w pre g.rules fuel st e = .ok (st', e')) :
    ∃ es', es <+: es' ∧ RInv w pre g reg0 st' es' ∧ BodyRel es' e e' := by
  unfold refineBody at h
  simp only [Out.bind_eq_ok] at h
  obtain ⟨⟨st1, ts⟩, h1, h2⟩ := h
  simp at h2
  obtain ⟨rfl, rfl⟩ := h2
  obtain ⟨es', p, i, r⟩ := mapState_spec (R := TermRel) (fun h _ _ => TermRel.mono h)
    (fun a ha st es st' a' hi h => refineTerm_spec hi (hlit a ha) h) hi h1
  exact ⟨es', p, i, rfl, rfl, r⟩

theorem refineRule_spec {w : RefineWorld} {pre : String} {g : Grammar} {reg0 : Registry} {fuel : Nat} {st st' : RefineSt}
    {es : List Entry} {e e' : String × Rule} (hi : RInv w pre g reg0 st es)
    (hlit : ∀ rb ∈ e.2.bodies, ∀ t ∈ rb.terms, t.type = .terminal → g.Literal t)
    (h : refineRule w pre g.rules fuel st e = .ok (st', e')) :
    ∃ es', es <+: es' ∧ RInv w pre g reg0 st' es' ∧ RuleRel es' e e' := by
  unfold refineRule at h
  simp only [Out.bind_eq_ok] at h
  obtain ⟨⟨st1, ts⟩, h1, h2⟩ := h
  simp at h2
  obtain ⟨rfl, rfl⟩ := h2
  obtain ⟨es', p, i, r⟩ := mapState_spec (R := BodyRel) (fun h _ _ => BodyRel.mono h)
    (fun a ha st es st' a' hi h =>
      refineBody_spec hi (hlit a.2 (by simp only [Rule.bodies]; exact List.mem_map_of_mem ha)) h) hi h1
  exact ⟨es', p, i, rfl, rfl, r⟩

theorem rinv_start (w : RefineWorld) (pre : String) (g : Grammar) (reg : Registry) : RInv w pre g reg { reg := reg } [] :=
  ⟨rfl, rfl, rfl, by simp, by simp, by simp, by simp, by simp, by simp, by simp, by simp, fun _ _ h => h, by simp, fun _ _ h => .inl h⟩

/-- What a successful run of `refine` on an unrefined grammar produces. -/
structure Refined (w : RefineWorld) (g g' : Grammar) (es : List Entry) (rules : List (String × Rule)) : Prop where
  rel : List.Forall₂ (RuleRel es) g.rules rules
  result : g' = Grammar.mk g.name
    ((es.map (fun e => Rule.mk e.name [(e.hash, e.body)])).foldl (fun m r => mapSet m r.name r) rules)
    g.frames g.regexps true
  namesNodup : (es.map Entry.name).Nodup
  litsNodup : (es.map Entry.lit).Nodup
  fresh : ∀ e ∈ es, g.rules.lookup e.name = none
  body : ∀ e ∈ es, e.body =
    { terms := readTerm w.annot { value := e.lit, type := .terminal, «meta» := e.meta }, f := none }
  annot : ∀ e ∈ es, ∃ toks, w.annot e.lit = some toks
  occurs : ∀ e ∈ es, g.Literal { value := e.lit, type := .terminal, «meta» := e.meta }

theorem refine_spec {w : RefineWorld} {pre : String} {fuel : Nat} {reg reg' : Registry} {g g' : Grammar}
    (hg : g.refined = false) (h : refine w pre fuel reg g = .ok (reg', g')) :
    ∃ es rules, Refined w g g' es rules ∧
      (∀ k v, reg.lookup k = some v → reg'.lookup k = some v) ∧
      (∀ e ∈ es, ∀ toks, w.annot e.lit = some toks → ∀ a ∈ toks, a.type ≠ .space →
        ∃ v, reg'.lookup a.text = some v) ∧
      (∀ k v, reg'.lookup k = some v → reg.lookup k = some v ∨
        (v.text = k ∧ ∃ e ∈ es, ∃ toks, w.annot e.lit = some toks ∧ v ∈ toks)) ∧
      (NamesApart w pre g → ∀ e ∈ es, e.name = literalName w pre e.lit) ∧
      (∀ e ∈ es, (pre ++ "_t").toList <+: e.name.toList) := by
  unfold refine at h
  simp only [hg, Bool.false_eq_true, if_false, Out.bind_eq_ok] at h
  obtain ⟨⟨st, rules⟩, h1, h2⟩ := h
  simp at h2
  obtain ⟨rfl, rfl⟩ := h2
  obtain ⟨es, _, i, r⟩ := mapState_spec (R := RuleRel) (fun h _ _ => RuleRel.mono h)
    (fun a ha st es st' a' hi h =>
      refineRule_spec hi (fun rb hrb t ht htt => ⟨a, ha, rb, hrb, ht, htt⟩) h) (rinv_start w pre g reg) h1
  exact ⟨es, rules, ⟨r, by rw [i.rules], i.namesNodup, i.litsNodup, i.fresh, i.body, i.annot, i.occurs⟩,
    i.regKeep, i.regHas, i.regOnly, i.named, i.prefixed⟩

end Fmr
