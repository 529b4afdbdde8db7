import Verif.Props.Shipped
import Verif.Props.TextTrees
import Verif.Proofs.RefineNames

/-!
# What is loaded from a grammar file of the repository
-/

namespace Fmr

/-- what the files of the repository say -/
noncomputable def shippedSays (lw : LoadWorld) (place : String → String) (p : String) : List Def × List (String × String) :=
  open Classical in
  if h : ∃ x : List Def × List (String × String), ∃ t ∈ sheets, p = t.path lw place ∧ FileSyn lw.lex t.file.text x.1 x.2
  then h.choose else ([], [])

noncomputable def shippedFiles (lw : LoadWorld) (place : String → String) : Files :=
  ⟨fun p => (shippedSays lw place p).1, fun p => (shippedSays lw place p).2⟩

theorem Sheet.reach_closed : ∀ s ∈ sheets, ∀ t ∈ s :: Sheet.reach 3 s, ∀ f ∈ t.includes,
    ∃ u ∈ Sheet.reach 3 s, u.file.dir = t.file.dir ∧ u.file.name = f := by
  decide +kernel

section
variable {lw : LoadWorld} {place : String → String} (h : ReadsShipped lw place)
include h

theorem sheet_text {t : Sheet} (ht : t ∈ sheets) : lw.read (t.path lw place) = some t.file.text :=
  h.read _ (List.mem_cons_of_mem _ (Sheet.good ht))

theorem sheet_dir {t : Sheet} (ht : t ∈ sheets) : lw.dir (t.path lw place) = some (place t.file.dir) :=
  h.dir _ (List.mem_cons_of_mem _ (Sheet.good ht))

theorem shipped_says {t : Sheet} (ht : t ∈ sheets) : (shippedFiles lw place).defs (t.path lw place) = sheetDefs lw.lex t ∧
    FileSyn lw.lex t.file.text (sheetDefs lw.lex t) ((shippedFiles lw place).regexps (t.path lw place)) := by
  obtain ⟨ρ, k⟩ := sheet_says h ht
  have hex : ∃ x : List Def × List (String × String), ∃ t' ∈ sheets, t.path lw place = t'.path lw place ∧
      FileSyn lw.lex t'.file.text x.1 x.2 := ⟨(_, ρ), t, ht, rfl, k.is.syn⟩
  have e : shippedSays lw place (t.path lw place) = hex.choose := by
    unfold shippedSays
    rw [dif_pos hex]
  obtain ⟨t', h1, h2, h3⟩ := hex.choose_spec
  have hx : t'.file.text = t.file.text := by
    have := sheet_text h h1
    rw [← h2, sheet_text h ht] at this
    exact (Option.some.inj this).symm
  rw [hx, ← e] at h3
  have h4 := C80_unique h.ok k.clean h3 k.is.syn
  refine ⟨h4.1, ?_⟩
  rw [← h4.1]
  exact h3

/-- a file includes no other files than those that its directives lead to -/
theorem sheet_reached {s : Sheet} (hs : s ∈ sheets) {p : String} (hp : Includes lw (place s.file.dir) s.file.text p) :
    ∃ t ∈ Sheet.reach 3 s, p = t.path lw place := by
  have hin : ∀ t ∈ s :: Sheet.reach 3 s, t ∈ sheets := by
    intro t ht
    rcases List.mem_cons.1 ht with rfl | ht
    · exact hs
    · exact (sheet_reach h hs ht).1
  have one : ∀ {t : Sheet} {f : String}, t ∈ s :: Sheet.reach 3 s → Target lw.lex t.file.text f →
      ∃ u ∈ Sheet.reach 3 s, lw.join (place t.file.dir) f = u.path lw place := by
    intro t f ht hf
    obtain ⟨ρ, k⟩ := sheet_says h (hin t ht)
    obtain ⟨u, h1, h2, h3⟩ := Sheet.reach_closed s hs t ht f (k.is.target h.ok k.clean hf)
    exact ⟨u, h1, by rw [Sheet.path, h2, h3]⟩
  induction hp with
  | direct ht => exact one List.mem_cons_self ht
  | step _ hr hd ht ih =>
    obtain ⟨t, h1, rfl⟩ := ih
    rw [sheet_text h (hin t (List.mem_cons_of_mem _ h1))] at hr
    rw [sheet_dir h (hin t (List.mem_cons_of_mem _ h1))] at hd
    cases hr
    cases hd
    exact one (List.mem_cons_of_mem _ h1) ht

/-- the files that are included -/
def Sheet.others (lw : LoadWorld) (place : String → String) (s : Sheet) (q : String) : Prop :=
  Includes lw (place s.file.dir) s.file.text q ∧ q ≠ s.path lw place

theorem shipped_from {s : Sheet} (hs : s ∈ sheets) {fuel depth : Nat} {reg : Registry} {ld : Loaded} {st : LoadSt}
    (hload : loadFile lw fuel depth (s.path lw place) reg = .ok (some ld, st)) :
    LoadedFrom lw (shippedFiles lw place) (sheetDefs lw.lex s) ((shippedFiles lw place).regexps (s.path lw place))
      (s.others lw place) ld := by
  have hsheet : ∀ q, q = s.path lw place ∨ Includes lw (place s.file.dir) s.file.text q → ∃ t ∈ sheets, q = t.path lw place := by
    rintro q (rfl | hq)
    · exact ⟨s, hs, rfl⟩
    · exact sheet_included h hs hq
  have := LoadedFrom.file (F := shippedFiles lw place) (sheet_text h hs) (sheet_dir h hs) ⟨?_, ?_⟩ hload
  · rw [(shipped_says h hs).1] at this
    exact this
  · intro q t hq hr
    obtain ⟨u, hu, rfl⟩ := hsheet q hq
    rw [sheet_text h hu] at hr
    cases hr
    rw [(shipped_says h hu).1]
    exact ⟨sheet_clean h hu, (shipped_says h hu).2⟩
  · intro q hq
    obtain ⟨u, hu, rfl⟩ := hsheet q hq
    rw [(shipped_says h hu).1]
    exact ⟨fun _ _ b _ => h.hash b, h.apart _ (Sheet.good hu) _ _ (shipped_says h hu).2⟩

/-- what is written in the files -/
theorem shipped_written {s : Sheet} (hs : s ∈ sheets) {A : String} {b : RuleBody} :
    wholeWritten (sheetDefs lw.lex s) (shippedFiles lw place) (s.others lw place) A b ↔
      ∃ t ∈ s :: Sheet.reach 3 s, Written (sheetDefs lw.lex t) false A b := by
  constructor
  · rintro (hb | ⟨p, ⟨hp, -⟩, hb⟩)
    · exact ⟨s, List.mem_cons_self, hb⟩
    · obtain ⟨t, ht, rfl⟩ := sheet_reached h hs hp
      rw [(shipped_says h (sheet_reach h hs ht).1).1] at hb
      exact ⟨t, List.mem_cons_of_mem _ ht, hb⟩
  · rintro ⟨t, ht, hb⟩
    rcases List.mem_cons.1 ht with rfl | ht
    · exact .inl hb
    · obtain ⟨h1, h2⟩ := sheet_reach h hs ht
      by_cases e : t.path lw place = s.path lw place
      · have := (shipped_says h h1).1
        rw [e, (shipped_says h hs).1] at this
        rw [← this] at hb
        exact .inl hb
      · refine .inr ⟨_, ⟨h2, e⟩, ?_⟩
        rw [(shipped_says h h1).1]
        exact hb

/-- the grammar of each of the files -/
theorem shipped_piece {s : Sheet} (hs : s ∈ sheets) {ld : Loaded} {ρ : List (String × String)}
    (hl : HeldBy lw (sheetDefs lw.lex s) ρ (shippedFiles lw place) (s.others lw place) ld) {t : Sheet} (ht : t ∈ s :: Sheet.reach 3 s) :
    ∃ f : Grammar × Grammar, f.2 ∈ ld.gram.main :: ld.gram.includes ∧ Piece lw (sheetDefs lw.lex t) f := by
  obtain ⟨fs, h1, -, ⟨f, h2, h3⟩, h4, -⟩ := hl.pieces
  have key : ∀ f ∈ fs, f.2 ∈ ld.gram.main :: ld.gram.includes := fun f hf => by
    rw [← h1]
    exact List.mem_map_of_mem hf
  rcases List.mem_cons.1 ht with rfl | ht
  · exact ⟨f, key f h2, h3⟩
  · obtain ⟨g1, g2⟩ := sheet_reach h hs ht
    by_cases e : t.path lw place = s.path lw place
    · have := (shipped_says h g1).1
      rw [e, (shipped_says h hs).1] at this
      rw [← this]
      exact ⟨f, key f h2, h3⟩
    · obtain ⟨f', h5, h6⟩ := h4 _ ⟨g2, e⟩
      rw [(shipped_says h g1).1] at h6
      exact ⟨f', key f' h5, h6⟩

end

/-! ### files of literals and references -/

/-- Every alternative has terms, which are references to `names` or literals without flags among `lits`; and every rule
is one of `names`. -/
def defsLike (names lits : List String) (ds : List Def) : Bool :=
  ds.all fun d => !d.frame && names.contains d.name && d.bodies.all fun b => !b.terms.isEmpty && b.terms.all fun t =>
    (t.type == .nonterminal && names.contains t.value) || (t.type == .terminal && t.meta == .nil && lits.contains t.value)

theorem defsLike_written {names lits : List String} {ds : List Def} (hl : defsLike names lits ds = true) {A : String} {b : RuleBody}
    (hb : Written ds false A b) : A ∈ names ∧ b.terms ≠ [] ∧ ∀ t ∈ b.terms,
      (t.type = .nonterminal ∧ t.value ∈ names) ∨ (t.type = .terminal ∧ t.meta = .nil ∧ t.value ∈ lits) := by
  obtain ⟨d, h1, -, rfl, h2⟩ := hb
  have := List.all_eq_true.1 hl d h1
  rw [Bool.and_eq_true, Bool.and_eq_true] at this
  have h3 := List.all_eq_true.1 this.2 b h2
  rw [Bool.and_eq_true] at h3
  refine ⟨by simpa using this.1.2, by simpa using h3.1, fun t ht => ?_⟩
  have h4 := List.all_eq_true.1 h3.2 t ht
  simpa [and_assoc] using h4

/-- the text of the file has only definitions without regexps, and these pass the check -/
def plainCheck (P : List Def → Bool) (fl : List (String × Rat)) : List (List Char) → Bool
  | [] => false
  | l :: ls =>
    match rdFile fl 100 l, rdParts fl ls with
    | some (_, ds), some ps => (ps.all fun p => match p with | .defs _ => true | .re .. => false) &&
        P (ds ++ ps.flatMap fun p => match p with | .defs ds => ds | .re .. => [])
    | _, _ => false

theorem plain_toDefs {w : LexWorld} : ∀ {ps : List Part}, (ps.all fun p => match p with | .defs _ => true | .re .. => false) = true →
    ps.flatMap (·.toDefs w) = ps.flatMap fun p => match p with | .defs ds => ds | .re .. => []
  | [], _ => rfl
  | p :: ps, h => by
    rw [List.all_cons, Bool.and_eq_true] at h
    rw [List.flatMap_cons, List.flatMap_cons, plain_toDefs h.2]
    cases p with
    | defs => rfl
    | re => cases h.1

theorem plain_parts {w : LexWorld} {fl : List (String × Rat)} (hw : PlainLex w fl) : ∀ {ls : List (List Char)} {ps : List Part},
    PlainText w ls.flatten → rdParts fl ls = some ps → (ps.all fun p => match p with | .defs _ => true | .re .. => false) = true →
    DefsSyn w ls.flatten (ps.flatMap (·.toDefs w)) [] []
  | [], _, _, h, _ => by
    cases h
    exact .nil (.spaces (by intro c hc; cases hc))
  | l :: ls, ps, hp, h, hf => by
    rw [rdParts] at h
    rw [List.flatten_cons] at hp ⊢
    split at h
    · next p ps' h1 h2 =>
      cases h
      rw [List.all_cons, Bool.and_eq_true] at hf
      rw [List.flatMap_cons]
      refine DefsSyn.append ?_ (plain_parts hw hp.right h2 hf.2)
      unfold rdPart at h1
      split at h1
      · next ds e =>
        cases h1
        exact rdDefs_sound hw (fun c hc => hp c (List.mem_append_left _ hc)) e []
      · split at h1
        · cases h1
          cases hf.1
        · cases h1
    · cases h

theorem plainCheck_sound {P : List Def → Bool} {w : LexWorld} {fl : List (String × Rat)} (hw : PlainLex w fl) {ls : List (List Char)}
    (hp : PlainText w ls.flatten) (h : plainCheck P fl ls = true) :
    P (partsDefs w fl ls) = true ∧ FileSyn w ls.flatten (partsDefs w fl ls) [] := by
  cases ls with
  | nil => cases h
  | cons l ls =>
    rw [plainCheck] at h
    rw [List.flatten_cons] at hp ⊢
    rw [partsDefs]
    split at h
    · next fs ds ps e1 e2 =>
      rw [Bool.and_eq_true] at h
      simp only [e1, e2]
      refine ⟨by rw [plain_toDefs h.1]; exact h.2, ?_⟩
      exact ((rdFile_sound hw (fun c hc => hp c (List.mem_append_left _ hc)) e1).append (plain_parts hw hp.right e2 h.1)).syn
    · cases h

/-- The definitions of the file pass the check, and it has no regexps. -/
def SheetPasses (P : List Def → Bool) (s : Sheet) : Prop := ∃ ls, PartsAre s.file.parts ls ∧ plainCheck P shippedFloats ls = true

theorem SheetPasses.sound {P : List Def → Bool} {lw : LoadWorld} {place : String → String} (h : ReadsShipped lw place) {s : Sheet}
    (hs : s ∈ sheets) (hc : SheetPasses P s) :
    P (sheetDefs lw.lex s) = true ∧ (shippedFiles lw place).regexps (s.path lw place) = [] := by
  obtain ⟨ls, h1, h2⟩ := hc
  have hp := h.text (List.mem_cons_of_mem _ (Sheet.good hs))
  rw [ShippedFile.text, h1.eq] at hp
  obtain ⟨h3, h4⟩ := plainCheck_sound h.plain hp h2
  rw [sheetDefs, h1.eq]
  refine ⟨h3, ?_⟩
  have h5 := (shipped_says h hs).2
  have e : s.file.text = ls.flatten := by rw [ShippedFile.text, h1.eq]
  rw [e] at h5
  exact (C80_unique h.ok (e ▸ sheet_clean h hs) h5 h4).2

end Fmr
