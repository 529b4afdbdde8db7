import Verif.Proofs.NumberZh
import Verif.Proofs.Unique
import Verif.Spec.Called
import Verif.Spec.Shipped

/-!
# What the grammar files of the repository say
-/

namespace Fmr

theorem FileIs.syn {w : LexWorld} {l : List Char} {fs : List String} {ds : List Def} {ρ : List (String × String)}
    (h : FileIs w l fs ds ρ) : FileSyn w l ds ρ := by
  induction h with
  | defs h => exact .defs h
  | incl h _ ih => exact .incl h ih

theorem FileIs.append {w : LexWorld} {l l' : List Char} {fs : List String} {ds ds' : List Def} {ρ ρ' : List (String × String)}
    (h : FileIs w l fs ds ρ) (h' : DefsSyn w l' ds' ρ ρ') : FileIs w (l ++ l') fs (ds ++ ds') ρ' := by
  induction h with
  | defs h => exact .defs (h.append h')
  | incl hi _ ih =>
    rw [List.append_assoc]
    exact .incl hi (ih h')

theorem FileIs.target {w : LexWorld} (hw : w.OK) {l : List Char} {fs : List String} {ds : List Def} {ρ : List (String × String)}
    (h : FileIs w l fs ds ρ) (hg : runeError ∉ l) {f : String} (ht : Target w l f) : f ∈ fs := by
  obtain ⟨fs', h', hf⟩ := ht
  induction h generalizing fs' with
  | @defs r ds ρ hd =>
    generalize e : r = r' at h'
    cases h' with
    | nil => cases hf
    | cons hi _ =>
      subst e
      exact (hi.not_defs hw hd hg).elim
  | @incl t l f0 fs ds ρ hi _ ih =>
    generalize e : t ++ l = r' at h'
    cases h' with
    | nil => cases hf
    | @cons t' l' f' fs' hi' hh =>
      obtain ⟨e1, e2⟩ := hi.det hw hi' e hg
      subst e1 e2
      rcases List.mem_cons.1 hf with rfl | hf
      · exact List.mem_cons_self
      · exact List.mem_cons_of_mem _ (ih (fun hm => hg (List.mem_append_right _ hm)) _ hh hf)

/-! ## checks -/

mutual
def FMR.fitsB (n : Nat) : FMR → Bool
  | .mk fn args => (fn != "nf.I" || args.length == 1) && argsFitB n args
def argsFitB (n : Nat) : List Arg → Bool
  | [] => true
  | a :: as => a.fitsB n && argsFitB n as
def Arg.fitsB (n : Nat) : Arg → Bool
  | .mk t v => v.fitsB n t
def Val.fitsB (n : Nat) (t : String) : Val → Bool
  | .str _ => t == "context" || t == "string"
  | .bigInt _ => t == "int"
  | .bigFloat _ => t == "float"
  | .int i => t == "index" && decide (0 ≤ i) && decide (i ≤ n)
  | .fmr f => t == "func" && f.fitsB n
  | .nilFmr => false
  | .other _ => false
end

mutual
theorem FMR.fitsB_ok {n : Nat} : ∀ {f : FMR}, f.fitsB n = true → FmrFits n f
  | .mk fn args, h => by
    rw [FMR.fitsB, Bool.and_eq_true, Bool.or_eq_true] at h
    refine .mk (fun e => ?_) (argsFitB_ok h.2)
    rcases h.1 with h | h
    · simp [e] at h
    · simpa using h
theorem argsFitB_ok {n : Nat} : ∀ {as : List Arg}, argsFitB n as = true → ArgsFit n as
  | [], _ => .nil
  | a :: as, h => by
    rw [argsFitB, Bool.and_eq_true] at h
    exact .cons (Arg.fitsB_ok h.1) (argsFitB_ok h.2)
theorem Arg.fitsB_ok {n : Nat} : ∀ {a : Arg}, a.fitsB n = true → ArgFits n a
  | .mk t v, h => by
    rw [Arg.fitsB] at h
    exact Val.fitsB_ok h
theorem Val.fitsB_ok {n : Nat} {t : String} : ∀ {v : Val}, v.fitsB n t = true → ArgFits n (.mk t v)
  | .str _, h => by
    rw [Val.fitsB, Bool.or_eq_true, beq_iff_eq, beq_iff_eq] at h
    rcases h with rfl | rfl
    · exact .context
    · exact .string
  | .bigInt _, h => by
    rw [Val.fitsB, beq_iff_eq] at h
    subst h
    exact .int
  | .bigFloat _, h => by
    rw [Val.fitsB, beq_iff_eq] at h
    subst h
    exact .float
  | .int i, h => by
    rw [Val.fitsB, Bool.and_eq_true, Bool.and_eq_true, beq_iff_eq, decide_eq_true_eq, decide_eq_true_eq] at h
    obtain ⟨⟨rfl, h1⟩, h2⟩ := h
    obtain ⟨k, rfl⟩ := Int.eq_ofNat_of_zero_le h1
    exact .index (by exact_mod_cast h2)
  | .fmr f, h => by
    rw [Val.fitsB, Bool.and_eq_true, beq_iff_eq] at h
    obtain ⟨rfl, h⟩ := h
    exact .func (FMR.fitsB_ok h)
  | .nilFmr, h => by rw [Val.fitsB] at h; cases h
  | .other _, h => by rw [Val.fitsB] at h; cases h
end

def bodyFits (known : List String) (b : RuleBody) : Bool :=
  !b.terms.isEmpty && b.terms.all (fun t => (t.type != .nonterminal && t.type != .list) || known.contains t.value) &&
  match b.f with
  | none => true
  | some f => f.fitsB b.terms.length

def defsFit (known : List String) (ds : List Def) : Bool := ds.all fun d => d.bodies.all (bodyFits known)

theorem defsFit_ok {known : List String} {ds : List Def} (h : defsFit known ds = true) : DefsFit (· ∈ known) ds := by
  intro d hd b hb
  have h := List.all_eq_true.1 (List.all_eq_true.1 h d hd) b hb
  unfold bodyFits at h
  rw [Bool.and_eq_true, Bool.and_eq_true] at h
  obtain ⟨⟨h1, h2⟩, h3⟩ := h
  refine ⟨by simpa using h1, fun t ht htt => ?_, fun f hf => ?_⟩
  · have := List.all_eq_true.1 h2 t ht
    rcases htt with e | e <;> simpa [e] using this
  · rw [hf] at h3
    exact FMR.fitsB_ok h3

theorem DefsFit.mono {k k' : String → Prop} {ds : List Def} (h : DefsFit k ds) (hk : ∀ x, k x → k' x) : DefsFit k' ds :=
  fun d hd b hb => ⟨(h d hd b hb).1, fun t ht htt => hk _ ((h d hd b hb).2.1 t ht htt), (h d hd b hb).2.2⟩

theorem DefsFit.append {k : String → Prop} {ds ds' : List Def} (h : DefsFit k ds) (h' : DefsFit k ds') : DefsFit k (ds ++ ds') := by
  intro d hd
  rcases List.mem_append.1 hd with hd | hd
  · exact h d hd
  · exact h' d hd

section
variable {w : LexWorld} {fl : List (String × Rat)} (hw : PlainLex w fl)
include hw

/-! ## a rule whose last alternative is a regexp -/

/-- readable alternatives, then a regexp -/
def rdBodiesRe (fl : List (String × Rat)) : Nat → List Char → Option (List RuleBody × List Char × List Char)
  | 0, _ => none
  | n + 1, l =>
    match expect '`' l with
    | some l' =>
      match l'.dropWhile (· != '`') with
      | '`' :: r =>
        match skipGap n r with
        | none => none
        | some r => some ([], l'.takeWhile (· != '`'), r)
      | _ => none
    | none =>
      match rdBody fl n l with
      | some (b, '|' :: r) =>
        match skipGap n r with
        | none => none
        | some r =>
          match rdBodiesRe fl n r with
          | none => none
          | some (bs, x) => some (b :: bs, x)
      | _ => none

/-- the alternative with a regexp -/
def reBody (w : LexWorld) (re : List Char) : RuleBody := ⟨[⟨w.md5 (String.ofList re), .nonterminal, .nil⟩], none⟩

theorem rdBodiesRe_sound : ∀ {n : Nat} {l r re : List Char} {bs : List RuleBody}, PlainText w l →
    rdBodiesRe fl n l = some (bs, re, r) → w.regexpOK (String.ofList re) = true → re ≠ [] →
    (∀ c, re.head? = some c → w.isSpace c = false) → ∃ p, l = p ++ r ∧
      ∀ ρ, BodiesSyn w p (bs ++ [reBody w re]) ρ (mapSet ρ (w.md5 (String.ofList re)) (String.ofList re))
  | 0, _, _, _, _, _, h, _, _, _ => by cases h
  | n + 1, l, r, re, bs, hp, h, hre, hne, hsp => by
    rw [rdBodiesRe] at h
    split at h
    · next l' h0 =>
      obtain rfl := expect_sound h0
      split at h
      · next r1 h1 =>
        split at h
        · cases h
        · next r2 h2 =>
          cases h
          obtain ⟨g, e2, h2⟩ := skipGap_sound hw h2
          have e3 : l' = l'.takeWhile (· != '`') ++ '`' :: r1 := by rw [← h1, List.takeWhile_append_dropWhile]
          refine ⟨'`' :: ([] ++ (l'.takeWhile (· != '`') ++ ['`'])) ++ g, ?_, fun ρ => .one (.plain (.one (.regex
            (by intro c hc; cases hc) hne ?_ hsp hre) h2))⟩
          · conv_lhs => rw [e3, e2]
            simp
          · intro hm
            have := List.all_eq_true.1 (List.all_takeWhile (p := (· != '`')) (l := l')) _ hm
            simp at this
      · cases h
    · split at h
      · next b r1 h1 =>
        obtain ⟨p, e1, h1⟩ := rdBody_sound hw hp h1
        split at h
        · cases h
        · next r2 h2 =>
          obtain ⟨g, e2, h2⟩ := skipGap_sound hw h2
          split at h
          · cases h
          · next bs' x h3 =>
            cases h
            have ep : l = (p ++ '|' :: g) ++ r2 := by rw [e1, e2]; simp
            obtain ⟨q, e3, h3⟩ := rdBodiesRe_sound (ep ▸ hp).right h3 hre hne hsp
            exact ⟨p ++ '|' :: (g ++ q), by rw [ep, e3]; simp, fun ρ => .more (h1 ρ) h2 (h3 ρ)⟩
      · cases h

/-- a rule whose last alternative is a regexp, and white space -/
def rdDefRe (fl : List (String × Rat)) (n : Nat) (l : List Char) : Option (List Char × List RuleBody × List Char) :=
  match skipGap n l with
  | some ('<' :: l') =>
    match rdIdent l' with
    | some (x, '>' :: r) =>
      match skipGap n r with
      | some ('=' :: r) =>
        match skipGap n r with
        | none => none
        | some r =>
          match rdBodiesRe fl n r with
          | some (bs, re, ';' :: r) => if skipGap n r = some [] then some (x, bs, re) else none
          | _ => none
      | _ => none
    | _ => none
  | _ => none

theorem rdDefRe_sound {n : Nat} {l x re : List Char} {bs : List RuleBody} (hp : PlainText w l)
    (h : rdDefRe fl n l = some (x, bs, re)) (hre : w.regexpOK (String.ofList re) = true) (hne : re ≠ [])
    (hsp : ∀ c, re.head? = some c → w.isSpace c = false) (ρ : List (String × String)) :
    DefsSyn w l [⟨false, String.ofList x, bs ++ [reBody w re]⟩] ρ (mapSet ρ (w.md5 (String.ofList re)) (String.ofList re)) := by
  unfold rdDefRe at h
  split at h
  · next l' h0 =>
    obtain ⟨g, e0, h0⟩ := skipGap_sound hw h0
    split at h
    · next y r1 h1 =>
      obtain ⟨e1, hx⟩ := rdIdent_sound hw h1
      split at h
      · next r2 h2 =>
        obtain ⟨g1, e2, hg1⟩ := skipGap_sound hw h2
        split at h
        · cases h
        · next r3 h3 =>
          obtain ⟨g2, e3, hg2⟩ := skipGap_sound hw h3
          split at h
          · next bs' re' r4 h4 =>
            split at h
            · next h5 =>
              cases h
              have ep : l = (g ++ '<' :: (x ++ '>' :: (g1 ++ '=' :: g2))) ++ r3 := by rw [e0, e1, e2, e3]; simp
              obtain ⟨q, e4, hb⟩ := rdBodiesRe_sound hw (ep ▸ hp).right h4 hre hne hsp
              obtain ⟨g3, e5, hg3⟩ := skipGap_sound hw h5
              rw [List.append_nil] at e5
              have := DefsSyn.cons h0 (.rule hx hg1 hg2 (hb ρ)) (.nil hg3)
              rw [ep, e4, e5]
              simpa using this
            · cases h
          · cases h
      · cases h
    · cases h
  · cases h

end

/-! ## whole files -/

theorem mapSet_keys {m : List (String × String)} {k v x : String} (h : x = k ∨ x ∈ m.map (·.1)) :
    x ∈ (mapSet m k v).map (·.1) := by
  induction m with
  | nil =>
    rcases h with rfl | h
    · simp [mapSet]
    · cases h
  | cons e m ih =>
    obtain ⟨k', v'⟩ := e
    rw [mapSet]
    split
    · next hk =>
      rw [List.map_cons, List.mem_cons] at h ⊢
      have hk := beq_iff_eq.1 hk
      rcases h with h | h | h
      · exact .inl (h.trans hk.symm)
      · exact .inl h
      · exact .inr h
    · rw [List.map_cons, List.mem_cons] at h ⊢
      rcases h with h | h | h
      · exact .inr (ih (.inl h))
      · exact .inl h
      · exact .inr (ih (.inr h))

/-- what a part of a file is read as: definitions, or a rule whose last alternative is a regexp -/
inductive Part where
  | defs (ds : List Def)
  | re (x : List Char) (bs : List RuleBody) (r : List Char)

def rdPart (fl : List (String × Rat)) (l : List Char) : Option Part :=
  match rdDefs fl 100 l with
  | some ds => some (.defs ds)
  | none =>
    match rdDefRe fl 100 l with
    | some (x, bs, r) => some (.re x bs r)
    | none => none

def Part.toDefs (w : LexWorld) : Part → List Def
  | .defs ds => ds
  | .re x bs r => [⟨false, String.ofList x, bs ++ [reBody w r]⟩]

/-- the regexp that occurs -/
def theRegexp : List Char := ['.', '(', '?', ':', '城', '|', '都', ')']

def Part.fits (known : List String) : Part → Bool
  | .defs ds => defsFit known ds
  | .re _ bs r => bs.all (bodyFits known) && r == theRegexp

def Part.defines (x : String) : Part → Bool
  | .defs ds => ds.any fun d => !d.frame && d.name == x
  | .re y _ _ => String.ofList y == x

def rdParts (fl : List (String × Rat)) : List (List Char) → Option (List Part)
  | [] => some []
  | l :: ls =>
    match rdPart fl l, rdParts fl ls with
    | some p, some ps => some (p :: ps)
    | _, _ => none

/-- the definitions of a file in parts -/
def partsDefs (w : LexWorld) (fl : List (String × Rat)) : List (List Char) → List Def
  | [] => []
  | l :: ls =>
    match rdFile fl 100 l, rdParts fl ls with
    | some (_, ds), some ps => ds ++ ps.flatMap (·.toDefs w)
    | _, _ => []

/-- The text has the directives `fs`; it defines the rules `names`, and its alternatives use only these and `known`. -/
def fileOK (fl : List (String × Rat)) (fs names known : List String) : List (List Char) → Bool
  | [] => false
  | l :: ls =>
    !l.contains runeError && ls.all (fun l => !l.contains runeError) &&
    match rdFile fl 100 l, rdParts fl ls with
    | some (fs', ds), some ps =>
      fs' == fs && defsFit (names ++ known) ds && ps.all (·.fits (names ++ known)) &&
      names.all fun x => (ds.any fun d => !d.frame && d.name == x) || ps.any (·.defines x)
    | _, _ => false

/-- what a text says -/
structure Says (w : LexWorld) (t : List Char) (fs names known : List String) (ds : List Def)
    (ρ : List (String × String)) : Prop where
  clean : runeError ∉ t
  is : FileIs w t fs ds ρ
  fits : DefsFit (fun x => x ∈ names ++ known ∨ x ∈ ρ.map (·.1)) ds
  defines : ∀ x ∈ names, ∃ d ∈ ds, d.frame = false ∧ d.name = x

section
variable {w : LexWorld} {fl : List (String × Rat)} (hw : PlainLex w fl) (hre : w.regexpOK (String.ofList theRegexp) = true)
include hw hre

theorem rdPart_sound {l : List Char} {p : Part} {known : List String} (hp : PlainText w l) (h : rdPart fl l = some p)
    (hf : p.fits known = true) (ρ : List (String × String)) :
    ∃ ρ', DefsSyn w l (p.toDefs w) ρ ρ' ∧ (∀ x ∈ ρ.map (·.1), x ∈ ρ'.map (·.1)) ∧
      DefsFit (fun x => x ∈ known ∨ x ∈ ρ'.map (·.1)) (p.toDefs w) := by
  unfold rdPart at h
  split at h
  · next ds h1 =>
    cases h
    exact ⟨ρ, rdDefs_sound hw hp h1 ρ, fun _ h => h, (defsFit_ok hf).mono fun _ => .inl⟩
  · split at h
    · next x bs r h1 =>
      cases h
      rw [Part.fits, Bool.and_eq_true, beq_iff_eq] at hf
      obtain ⟨hf, rfl⟩ := hf
      refine ⟨_, rdDefRe_sound hw hp h1 hre (by decide) (fun c hc => ?_) ρ, fun x hx => ?_, ?_⟩
      · cases hc
        exact (hw.ok.punct '.' (by decide)).2.2
      · exact mapSet_keys (.inr hx)
      · intro d hd b hb
        cases List.mem_singleton.1 hd
        rcases List.mem_append.1 hb with hb | hb
        · obtain ⟨h2, h3, h4⟩ := defsFit_ok (known := known) (ds := [⟨false, String.ofList x, bs⟩]) (by simpa [defsFit] using hf) _
            List.mem_cons_self b hb
          exact ⟨h2, fun t ht htt => .inl (h3 t ht htt), h4⟩
        · cases List.mem_singleton.1 hb
          refine ⟨by simp [reBody], fun t ht _ => ?_, fun f hf => by cases hf⟩
          cases List.mem_singleton.1 ht
          exact .inr (mapSet_keys (.inl rfl))
    · cases h

theorem rdParts_sound {known : List String} : ∀ {ls : List (List Char)} {ps : List Part}, PlainText w ls.flatten →
    rdParts fl ls = some ps → ps.all (·.fits known) = true → ∀ ρ,
    ∃ ρ', DefsSyn w ls.flatten (ps.flatMap (·.toDefs w)) ρ ρ' ∧ (∀ x ∈ ρ.map (·.1), x ∈ ρ'.map (·.1)) ∧
      DefsFit (fun x => x ∈ known ∨ x ∈ ρ'.map (·.1)) (ps.flatMap (·.toDefs w))
  | [], _, _, h, _ => by
    cases h
    exact fun ρ => ⟨ρ, .nil (.spaces (by intro c hc; cases hc)), fun _ h => h, fun d hd => by cases hd⟩
  | l :: ls, ps, hp, h, hf => by
    rw [rdParts] at h
    rw [List.flatten_cons] at hp ⊢
    split at h
    · next p ps' h1 h2 =>
      cases h
      rw [List.all_cons, Bool.and_eq_true] at hf
      intro ρ
      obtain ⟨ρ1, k1, k2, k3⟩ := rdPart_sound hw hre (fun c hc => hp c (List.mem_append_left _ hc)) h1 hf.1 ρ
      obtain ⟨ρ2, k4, k5, k6⟩ := rdParts_sound hp.right h2 hf.2 ρ1
      rw [List.flatMap_cons]
      exact ⟨ρ2, k1.append k4, fun x hx => k5 x (k2 x hx), (k3.mono fun x hx => hx.imp_right (k5 x)).append k6⟩
    · cases h

theorem fileOK_sound {fs names known : List String} {ls : List (List Char)}
    (hp : PlainText w ls.flatten) (h : fileOK fl fs names known ls = true) :
    ∃ ρ, Says w ls.flatten fs names known (partsDefs w fl ls) ρ := by
  cases ls with
  | nil => cases h
  | cons l ls =>
    rw [fileOK, Bool.and_eq_true, Bool.and_eq_true] at h
    obtain ⟨⟨h1, h2⟩, h3⟩ := h
    rw [List.flatten_cons] at hp ⊢
    rw [partsDefs]
    split at h3
    · next fs' ds ps e1 e2 =>
      simp only [Bool.and_eq_true, beq_iff_eq] at h3
      obtain ⟨⟨⟨rfl, h4⟩, h5⟩, h6⟩ := h3
      obtain ⟨ρ, k1, -, k3⟩ := rdParts_sound hw hre hp.right e2 h5 []
      refine ⟨ρ, ?_, (rdFile_sound hw (fun c hc => hp c (List.mem_append_left _ hc)) e1).append k1,
        ((defsFit_ok h4).mono fun _ => .inl).append k3, fun x hx => ?_⟩
      · rw [List.mem_append, not_or, List.mem_flatten]
        refine ⟨by simpa using h1, ?_⟩
        rintro ⟨l', h7, h8⟩
        have := List.all_eq_true.1 h2 l' h7
        simp [h8] at this
      · have h7 := List.all_eq_true.1 h6 x hx
        rw [Bool.or_eq_true, List.any_eq_true, List.any_eq_true] at h7
        rcases h7 with ⟨d, hd, h7⟩ | ⟨p, hpm, h7⟩
        · simp only [Bool.and_eq_true, Bool.not_eq_true', beq_iff_eq] at h7
          exact ⟨d, List.mem_append_left _ hd, h7⟩
        · have : ∃ d ∈ p.toDefs w, d.frame = false ∧ d.name = x := by
            cases p with
            | defs ds =>
              obtain ⟨d, hd, h7⟩ := List.any_eq_true.1 h7
              simp only [Bool.and_eq_true, Bool.not_eq_true', beq_iff_eq] at h7
              exact ⟨d, hd, h7⟩
            | re y bs r =>
              rw [Part.defines, beq_iff_eq] at h7
              exact ⟨_, List.mem_singleton.2 rfl, rfl, h7⟩
          obtain ⟨d, hd, h7⟩ := this
          exact ⟨d, List.mem_append_right _ (List.mem_flatMap.2 ⟨p, hpm, hd⟩), h7⟩
    · cases h3

end

theorem FileIs.header {w : LexWorld} {l : List Char} {fs : List String} {ds : List Def} {ρ : List (String × String)}
    (h : FileIs w l fs ds ρ) : HeaderSyn w l fs := by
  induction h with
  | defs => exact .nil
  | incl hi _ ih => exact .cons hi ih

/-! ## the functions that are called -/

mutual
def FMR.calls : FMR → List String
  | .mk fn args => (if fn = "nf.I" then [] else [fn]) ++ argsCalls args
def argsCalls : List Arg → List String
  | [] => []
  | a :: as => a.calls ++ argsCalls as
def Arg.calls : Arg → List String
  | .mk t v => if t = "func" then v.calls else []
def Val.calls : Val → List String
  | .fmr f => f.calls
  | _ => []
end

mutual
theorem FMR.calls_sound : ∀ (f : FMR) {g : String}, g ∈ f.calls → Calls f g
  | .mk fn args, g, h => by
    rw [FMR.calls, List.mem_append] at h
    rcases h with h | h
    · split at h
      · cases h
      · next hf =>
        rw [List.mem_singleton.1 h]
        exact .here hf
    · obtain ⟨f, h1, h2⟩ := argsCalls_sound args h
      exact .inner h1 h2
theorem argsCalls_sound : ∀ (as : List Arg) {g : String}, g ∈ argsCalls as → ∃ f, Arg.mk "func" (.fmr f) ∈ as ∧ Calls f g
  | [], _, h => by rw [argsCalls] at h; cases h
  | a :: as, g, h => by
    rw [argsCalls, List.mem_append] at h
    rcases h with h | h
    · obtain ⟨f, rfl, h2⟩ := Arg.calls_sound a h
      exact ⟨f, List.mem_cons_self, h2⟩
    · obtain ⟨f, h1, h2⟩ := argsCalls_sound as h
      exact ⟨f, List.mem_cons_of_mem _ h1, h2⟩
theorem Arg.calls_sound : ∀ (a : Arg) {g : String}, g ∈ a.calls → ∃ f, a = Arg.mk "func" (.fmr f) ∧ Calls f g
  | .mk t v, g, h => by
    rw [Arg.calls] at h
    split at h
    · next ht =>
      subst ht
      obtain ⟨f, rfl, h'⟩ := Val.calls_sound v h
      exact ⟨f, rfl, h'⟩
    · cases h
theorem Val.calls_sound : ∀ (v : Val) {g : String}, g ∈ v.calls → ∃ f, v = .fmr f ∧ Calls f g
  | .fmr f, g, h => by
    rw [Val.calls] at h
    exact ⟨f, rfl, FMR.calls_sound f h⟩
  | .str _, _, h => by rw [Val.calls.eq_def] at h; cases h
  | .bigInt _, _, h => by rw [Val.calls.eq_def] at h; cases h
  | .bigFloat _, _, h => by rw [Val.calls.eq_def] at h; cases h
  | .int _, _, h => by rw [Val.calls.eq_def] at h; cases h
  | .nilFmr, _, h => by rw [Val.calls.eq_def] at h; cases h
  | .other _, _, h => by rw [Val.calls.eq_def] at h; cases h
end

theorem argsCalls_mem {f : FMR} {g : String} (hg : g ∈ f.calls) : ∀ {as : List Arg}, Arg.mk "func" (.fmr f) ∈ as → g ∈ argsCalls as
  | a :: as, h => by
    rw [argsCalls, List.mem_append]
    rcases List.mem_cons.1 h with rfl | h
    · left
      rw [Arg.calls, if_pos rfl, Val.calls]
      exact hg
    · exact .inr (argsCalls_mem hg h)

theorem mem_calls {f : FMR} {g : String} : g ∈ f.calls ↔ Calls f g := by
  refine ⟨FMR.calls_sound f, fun h => ?_⟩
  induction h with
  | here h =>
    rw [FMR.calls, if_neg h]
    simp
  | inner h1 _ ih =>
    rw [FMR.calls]
    exact List.mem_append_right _ (argsCalls_mem ih h1)

def RuleBody.calls (b : RuleBody) : List String :=
  match b.f with
  | none => []
  | some f => f.calls

def Part.bodies : Part → List RuleBody
  | .defs ds => ds.flatMap (·.bodies)
  | .re _ bs _ => bs

/-- the functions that a file in parts calls -/
def partsCalls (fl : List (String × Rat)) : List (List Char) → List String
  | [] => []
  | l :: ls =>
    match rdFile fl 100 l, rdParts fl ls with
    | some (_, ds), some ps => (ds.flatMap (·.bodies) ++ ps.flatMap Part.bodies).flatMap RuleBody.calls
    | _, _ => []

theorem defsCall_iff {ds : List Def} {g : String} : DefsCall ds g ↔ g ∈ (ds.flatMap (·.bodies)).flatMap RuleBody.calls := by
  simp only [DefsCall, List.mem_flatMap, RuleBody.calls]
  constructor
  · rintro ⟨d, h1, b, h2, f, h3, h4⟩
    exact ⟨b, ⟨d, h1, h2⟩, by rw [h3]; exact mem_calls.2 h4⟩
  · rintro ⟨b, ⟨d, h1, h2⟩, h⟩
    split at h
    · cases h
    · next f hf => exact ⟨d, h1, b, h2, f, hf, mem_calls.1 h⟩

theorem partCalls_iff {w : LexWorld} {g : String} : ∀ {p : Part}, DefsCall (p.toDefs w) g ↔ g ∈ p.bodies.flatMap RuleBody.calls
  | .defs ds => defsCall_iff
  | .re x bs r => by
    rw [defsCall_iff]
    simp [Part.toDefs, Part.bodies, RuleBody.calls, reBody]

theorem DefsCall.append {ds ds' : List Def} {g : String} : DefsCall (ds ++ ds') g ↔ DefsCall ds g ∨ DefsCall ds' g := by
  simp only [DefsCall, List.mem_append]
  constructor
  · rintro ⟨d, h | h, h'⟩
    · exact .inl ⟨d, h, h'⟩
    · exact .inr ⟨d, h, h'⟩
  · rintro (⟨d, h, h'⟩ | ⟨d, h, h'⟩)
    · exact ⟨d, .inl h, h'⟩
    · exact ⟨d, .inr h, h'⟩

theorem defsCall_nil {g : String} : ¬ DefsCall [] g := by
  rintro ⟨d, h, -⟩
  cases h

theorem partsCalls_iff {w : LexWorld} {fl : List (String × Rat)} {ls : List (List Char)} {g : String} :
    DefsCall (partsDefs w fl ls) g ↔ g ∈ partsCalls fl ls := by
  cases ls with
  | nil =>
    rw [partsDefs, partsCalls]
    simp [defsCall_nil]
  | cons l ls =>
    rw [partsDefs, partsCalls]
    split
    · next ds ps _ hps =>
      rw [DefsCall.append, List.flatMap_append, List.mem_append, defsCall_iff]
      refine or_congr_right ?_
      clear hps
      induction ps with
      | nil => simp [defsCall_nil]
      | cons p ps ih => rw [List.flatMap_cons, List.flatMap_cons, DefsCall.append, List.flatMap_append, List.mem_append, ih, partCalls_iff]
    · simp [defsCall_nil]

/-- strings given by their characters -/
inductive PartsAre : List String → List (List Char) → Prop
  | nil : PartsAre [] []
  | cons {p : String} {l : List Char} {ps : List String} {ls : List (List Char)} : p = String.ofList l → PartsAre ps ls →
      PartsAre (p :: ps) (l :: ls)

theorem PartsAre.eq {ps : List String} {ls : List (List Char)} (h : PartsAre ps ls) : ps.map String.toList = ls := by
  induction h with
  | nil => rfl
  | cons h _ ih => rw [List.map_cons, ih, h, String.toList_ofList]

end Fmr
