import Verif.Proofs.NumberZhLang

/-!
# Numerals have one value
-/

namespace Fmr

open Sign

/-! ## numerals as signs -/

def sgnOnes (n : Nat) : List Sign := if n = 0 then [] else [D n]

def sgnTens (b : Bool) (n : Nat) : List Sign :=
  if n / 10 = 0 then sgnOnes n else (if b = true ∧ n / 10 = 1 then [] else [D (n / 10)]) ++ T :: sgnOnes (n % 10)

def sgnHundreds (b : Bool) (n : Nat) : List Sign :=
  if n / 100 = 0 then sgnTens b n
  else D (n / 100) :: H ::
    (if n % 100 = 0 then [] else if n % 100 < 10 then Z :: sgnOnes (n % 100) else sgnTens false (n % 100))

def sgnThousands (b : Bool) (n : Nat) : List Sign :=
  if n / 1000 = 0 then sgnHundreds b n
  else D (n / 1000) :: K ::
    (if n % 1000 = 0 then [] else if n % 1000 < 100 then Z :: sgnTens false (n % 1000) else sgnHundreds false (n % 1000))

/-- what follows 万 -/
def sgnAfterW (n : Nat) : List Sign :=
  if n = 0 then [] else if n < 1000 then Z :: sgnHundreds false n else sgnThousands false n

def sgnMyriads (b : Bool) (n : Nat) : List Sign :=
  if n / 10000 = 0 then sgnThousands b n else sgnThousands b (n / 10000) ++ W :: sgnAfterW (n % 10000)

/-- what follows 亿 -/
def sgnAfterY (n : Nat) : List Sign :=
  if n = 0 then [] else if n < 10000000 then Z :: sgnMyriads false n else sgnMyriads false n

def sgnNumber (b : Bool) (n : Nat) : List Sign :=
  if n = 0 then [Z]
  else if n / 100000000 = 0 then sgnMyriads b n else sgnMyriads b (n / 100000000) ++ Y :: sgnAfterY (n % 100000000)

theorem sign_zhDigit {d : Nat} (h : d ≠ 0) (h' : d < 10) : sign (zhDigit d) = D d := by
  match d, h, h' with
  | 1, _, _ | 2, _, _ | 3, _, _ | 4, _, _ | 5, _, _ | 6, _, _ | 7, _, _ | 8, _, _ | 9, _, _ => decide

theorem map_ones {n : Nat} (h : n < 10) : (zhOnes n).map sign = sgnOnes n := by
  unfold zhOnes sgnOnes
  split_ifs with h0
  · rfl
  · rw [List.map_singleton, sign_zhDigit h0 h]

theorem map_tens {b : Bool} {n : Nat} (h : n < 100) : (zhTens b n).map sign = sgnTens b n := by
  have e : sgnOnes (n % 10) = (zhOnes (n % 10)).map sign := (map_ones (by omega)).symm
  unfold zhTens sgnTens
  simp only [Bool.and_eq_true, decide_eq_true_eq]
  split_ifs with h0 h1
  · exact map_ones (by omega)
  · rw [e]; rfl
  · rw [e, ← sign_zhDigit h0 (by omega)]; rfl

theorem map_hundreds {b : Bool} {n : Nat} (h : n < 1000) : (zhHundreds b n).map sign = sgnHundreds b n := by
  unfold zhHundreds sgnHundreds
  split_ifs with h0 h1 h2
  · exact map_tens (by omega)
  · rw [List.map_cons, sign_zhDigit h0 (by omega)]; rfl
  · rw [List.map_cons, sign_zhDigit h0 (by omega), List.map_cons, List.map_cons, map_ones (by omega)]; rfl
  · rw [List.map_cons, sign_zhDigit h0 (by omega), List.map_cons, map_tens (by omega)]; rfl

theorem map_thousands {b : Bool} {n : Nat} (h : n < 10000) : (zhThousands b n).map sign = sgnThousands b n := by
  unfold zhThousands sgnThousands
  split_ifs with h0 h1 h2
  · exact map_hundreds (by omega)
  · rw [List.map_cons, sign_zhDigit h0 (by omega)]; rfl
  · rw [List.map_cons, sign_zhDigit h0 (by omega), List.map_cons, List.map_cons, map_tens (by omega)]; rfl
  · rw [List.map_cons, sign_zhDigit h0 (by omega), List.map_cons, map_hundreds (by omega)]; rfl

theorem map_myriads {b : Bool} {n : Nat} (h : n < 100000000) : (zhMyriads b n).map sign = sgnMyriads b n := by
  unfold zhMyriads sgnMyriads sgnAfterW
  split_ifs with h0 h1 h2
  · exact map_thousands (by omega)
  · rw [List.map_append, map_thousands (by omega)]; rfl
  · rw [List.map_append, map_thousands (by omega), List.map_cons, List.map_cons, map_hundreds (by omega)]; rfl
  · rw [List.map_append, map_thousands (by omega), List.map_cons, map_thousands (by omega)]; rfl

theorem map_number {b : Bool} {n : Nat} (h : n < 10 ^ 16) : (zhNumber b n).map sign = sgnNumber b n := by
  unfold zhNumber sgnNumber sgnAfterY
  split_ifs with h' h0 h1 h2
  · rfl
  · exact map_myriads (by omega)
  · rw [List.map_append, map_myriads (by omega)]; rfl
  · rw [List.map_append, map_myriads (by omega), List.map_cons, List.map_cons, map_myriads (by omega)]; rfl
  · rw [List.map_append, map_myriads (by omega), List.map_cons, map_myriads (by omega)]; rfl

/-! ## below 10000 -/

def v1 : List Sign → List Nat
  | [T] => [10]
  | [T, D d] => [10 + d]
  | [D d, T] => [d * 10]
  | [D d, T, D e] => [d * 10 + e]
  | [D d] => [d]
  | [Z] => [0]
  | _ => []

def vUnit (u : Sign) (k : Nat) (v : List Sign → List Nat) (s : List Sign) : List Nat :=
  v s ++
  match s with
  | D d :: x :: r =>
    if x = u then
      (match r with
      | [] => [d * (k * 10)]
      | [D e] => [d * (k * 10) + k * e]
      | _ => []) ++ (v r).map (d * (k * 10) + ·) ++
      (match r with
      | Z :: r' => (v r').map (d * (k * 10) + ·)
      | _ => [])
    else []
  | _ => []

def v2 : List Sign → List Nat := vUnit H 10 v1
def v3 : List Sign → List Nat := vUnit K 100 v2

theorem E1s.mem {s : List Sign} {n : Nat} (h : E1s s n) : n ∈ v1 s := by
  cases h <;> simp [v1]

theorem WithUnit.mem {u : Sign} {k : Nat} {B : List Sign → Nat → Prop} {v : List Sign → List Nat} (hB : ∀ s n, B s n → n ∈ v s)
    {s : List Sign} {n : Nat} (h : WithUnit Digit (· = [u]) B k s n) : n ∈ vUnit u k v s := by
  cases h with
  | unit h1 h2 => cases h1; subst h2; simp [vUnit]
  | short h1 h2 h3 => cases h1; subst h2; simp [vUnit]
  | rest h1 h2 h3 =>
    cases h1; subst h2
    have := hB _ _ h3
    simp only [vUnit, List.singleton_append, if_true, List.mem_append, List.mem_map]
    exact .inr (.inl (.inr ⟨_, this, rfl⟩))
  | gap h1 h2 h3 =>
    cases h1; subst h2
    have := hB _ _ h3
    simp only [vUnit, List.singleton_append, if_true, List.mem_append, List.mem_map]
    exact .inr (.inr ⟨_, this, rfl⟩)
  | below h => exact List.mem_append_left _ (hB _ _ h)

theorem E2s.mem {s : List Sign} {n : Nat} (h : E2s s n) : n ∈ v2 s := WithUnit.mem (fun _ _ h => h.mem) h

theorem E3s.mem {s : List Sign} {n : Nat} (h : E3s s n) : n ∈ v3 s := WithUnit.mem (fun _ _ h => h.mem) h

theorem thousands_unique {b : Bool} {n m : Nat} (hn : 0 < n) (hn' : n < 10000) (h : m ∈ v3 (sgnThousands b n)) : m = n := by
  unfold sgnThousands sgnHundreds sgnTens sgnOnes at h
  split_ifs at h <;> simp [v3, v2, v1, vUnit] at h <;> omega

theorem hundreds_eq {b : Bool} {n : Nat} (h : n < 1000) : sgnHundreds b n = sgnThousands b n := by
  rw [sgnThousands, if_pos (by omega)]

theorem thousands_ok {b : Bool} {n : Nat} (hn : 0 < n) (hn' : n < 10000) : E3s (sgnThousands b n) n := by
  have ones : ∀ {m : Nat}, 0 < m → m < 10 → sgnOnes m = [D m] := fun h _ => by rw [sgnOnes, if_neg (by omega)]
  have dig : ∀ {m : Nat}, 0 < m → m < 10 → E1s [D m] m := fun _ h => E1s.unit (by omega)
  have tens : ∀ {b : Bool} {m : Nat}, 0 < m → m < 100 → E1s (sgnTens b m) m := by
    intro b m h0 h1
    unfold sgnTens
    split_ifs with g1 g2
    · rw [ones h0 (by omega)]; exact dig h0 (by omega)
    · by_cases g3 : m % 10 = 0
      · have : m = 10 := by omega
        subst this; exact .ten
      · rw [ones (by omega) (by omega)]
        have : E1s [T, D (m % 10)] (10 + m % 10) := E1s.teen (by omega)
        rwa [show 10 + m % 10 = m by omega] at this
    · by_cases g3 : m % 10 = 0
      · have : E1s [D (m / 10), T] (m / 10 * 10) := .tens (by omega)
        rw [show m / 10 * 10 = m by omega] at this
        rwa [g3]
      · rw [ones (by omega) (by omega)]
        have : E1s [D (m / 10), T, D (m % 10)] (m / 10 * 10 + m % 10) := E1s.both (by omega) (by omega)
        rwa [show m / 10 * 10 + m % 10 = m by omega] at this
  have hundreds : ∀ {b : Bool} {m : Nat}, 0 < m → m < 1000 → E2s (sgnHundreds b m) m := by
    intro b m h0 h1
    unfold sgnHundreds
    have hd : Digit [D (m / 100)] (m / 100) := .mk (by omega)
    split_ifs with g1 g2 g3
    · exact .below (tens h0 (by omega))
    · have : E2s ([D (m / 100)] ++ [H]) (m / 100 * (10 * 10)) := .unit hd rfl
      rwa [show m / 100 * (10 * 10) = m by omega] at this
    · have : E2s ([D (m / 100)] ++ ([H] ++ Z :: sgnOnes (m % 100))) (m / 100 * (10 * 10) + m % 100) :=
        .gap hd rfl (by rw [ones (by omega) g3]; exact dig (by omega) g3)
      rwa [show m / 100 * (10 * 10) + m % 100 = m by omega] at this
    · have : E2s ([D (m / 100)] ++ ([H] ++ sgnTens false (m % 100))) (m / 100 * (10 * 10) + m % 100) :=
        .rest hd rfl (tens (by omega) (by omega))
      rwa [show m / 100 * (10 * 10) + m % 100 = m by omega] at this
  unfold sgnThousands
  have hd : Digit [D (n / 1000)] (n / 1000) := .mk (by omega)
  split_ifs with g1 g2 g3
  · exact .below (hundreds hn (by omega))
  · have : E3s ([D (n / 1000)] ++ [K]) (n / 1000 * (100 * 10)) := .unit hd rfl
    rwa [show n / 1000 * (100 * 10) = n by omega] at this
  · have : E3s ([D (n / 1000)] ++ ([K] ++ Z :: sgnTens false (n % 1000))) (n / 1000 * (100 * 10) + n % 1000) :=
      .gap hd rfl (.below (tens (by omega) g3))
    rwa [show n / 1000 * (100 * 10) + n % 1000 = n by omega] at this
  · have : E3s ([D (n / 1000)] ++ ([K] ++ sgnHundreds false (n % 1000))) (n / 1000 * (100 * 10) + n % 1000) :=
      .rest hd rfl (hundreds (by omega) (by omega))
    rwa [show n / 1000 * (100 * 10) + n % 1000 = n by omega] at this

/-! ## units -/

theorem E3s.noUnit {s : List Sign} {n : Nat} (h : E3s s n) : W ∉ s ∧ Y ∉ s := by
  have h1 : ∀ {s : List Sign} {n : Nat}, E1s s n → W ∉ s ∧ Y ∉ s := by
    intro s n h; cases h <;> simp
  have h2 : ∀ {s : List Sign} {n : Nat}, E2s s n → W ∉ s ∧ Y ∉ s := by
    intro s n h
    cases h with
    | unit g1 g2 => cases g1; subst g2; simp
    | short g1 g2 g3 => cases g1; subst g2; simp
    | rest g1 g2 g3 => cases g1; subst g2; simpa using h1 g3
    | gap g1 g2 g3 => cases g1; subst g2; simpa using h1 g3
    | below g => exact h1 g
  cases h with
  | unit g1 g2 => cases g1; subst g2; simp
  | short g1 g2 g3 => cases g1; subst g2; simp
  | rest g1 g2 g3 => cases g1; subst g2; simpa using h2 g3
  | gap g1 g2 g3 => cases g1; subst g2; simpa using h2 g3
  | below g => exact h2 g

theorem E4s.noUnit {s : List Sign} {n : Nat} (h : E4s s n) : Y ∉ s ∧ s.count W ≤ 1 := by
  have c0 : ∀ {s : List Sign} {n : Nat}, E3s s n → s.count W = 0 := fun h => List.count_eq_zero.2 h.noUnit.1
  cases h with
  | unit g1 g2 => subst g2; simp [c0 g1, g1.noUnit.2]
  | short g1 g2 g3 => subst g2; simp [c0 g1, g1.noUnit.2]
  | rest g1 g2 g3 => subst g2; simp [c0 g1, g1.noUnit.2, c0 g3, g3.noUnit.2]
  | gap g1 g2 g3 => subst g2; simp [c0 g1, g1.noUnit.2, c0 g3, g3.noUnit.2]
  | below g => simp [c0 g, g.noUnit.2]

/-- splitting at the only occurrence -/
theorem split_at {x : Sign} {a b c d : List Sign} (h : a ++ x :: b = c ++ x :: d) (ha : x ∉ a) (hc : x ∉ c) : a = c ∧ b = d := by
  induction a generalizing c with
  | nil =>
    cases c with
    | nil => simpa using h
    | cons y c =>
      simp only [List.nil_append, List.cons_append, List.cons.injEq] at h
      exact absurd (h.1 ▸ List.mem_cons_self) hc
  | cons z a ih =>
    cases c with
    | nil =>
      simp only [List.nil_append, List.cons_append, List.cons.injEq] at h
      exact absurd (h.1 ▸ List.mem_cons_self) ha
    | cons y c =>
      simp only [List.cons_append, List.cons.injEq] at h
      obtain ⟨rfl, h⟩ := h
      obtain ⟨rfl, rfl⟩ := ih h (fun h => ha (List.mem_cons_of_mem _ h)) (fun h => hc (List.mem_cons_of_mem _ h))
      exact ⟨rfl, rfl⟩

def hasWW : List Sign → Bool
  | W :: W :: _ => true
  | _ :: s => hasWW s
  | [] => false

theorem hasWW_of {a b : List Sign} : hasWW (a ++ W :: W :: b) = true := by
  induction a with
  | nil => rfl
  | cons x a ih =>
    rw [List.cons_append, hasWW.eq_def]
    split <;> simp_all

theorem noWW_split {a b : List Sign} (ha : a.count W ≤ 1) (hb : b.count W ≤ 1) : hasWW (a ++ Y :: b) = false := by
  have h0 : ∀ b : List Sign, b.count W ≤ 1 → hasWW b = false := by
    intro b hb
    induction b with
    | nil => rfl
    | cons x b ih =>
      rw [hasWW.eq_def]
      split
      · next h => obtain ⟨rfl, rfl⟩ := List.cons.inj h; simp at hb
      · next h =>
        obtain ⟨rfl, rfl⟩ := List.cons.inj h
        exact ih (le_trans (List.count_le_count_cons ..) hb)
      · next h => cases h
  induction a with
  | nil => exact h0 _ (by simpa using hb)
  | cons x a ih =>
    have := ih (le_trans (List.count_le_count_cons ..) ha)
    rw [List.cons_append, hasWW.eq_def]
    split
    · next h1 =>
      obtain ⟨rfl, h⟩ := List.cons.inj h1
      clear h1
      cases a with
      | nil => cases h
      | cons y a => obtain ⟨rfl, -⟩ := List.cons.inj h; simp at ha
    · next h => obtain ⟨rfl, rfl⟩ := List.cons.inj h; exact this
    · next h => cases h

theorem noWW_count {b : List Sign} (hb : b.count W ≤ 1) : hasWW b = false := by
  have := noWW_split (a := []) (b := b) (by simp) hb
  rw [List.nil_append, hasWW.eq_def] at this
  simpa using this

/-! ## below 100000000 -/

theorem E3s.zero {s : List Sign} {n : Nat} (h : E3s (Z :: s) n) : s = [] ∧ n = 0 := by
  have := h.mem
  simp only [v3, v2, vUnit, List.append_nil] at this
  cases s with
  | nil => simpa [v1] using this
  | cons x s => simp [v1] at this

/-- begins with a digit or 十 -/
def Starts (s : List Sign) : Prop := (∃ d r, s = D d :: r) ∨ ∃ r, s = T :: r

theorem starts_thousands {b : Bool} {n : Nat} (hn : 0 < n) : Starts (sgnThousands b n) := by
  unfold sgnThousands sgnHundreds sgnTens sgnOnes
  split_ifs <;> first | omega | simp [Starts]

theorem starts_myriads {b : Bool} {n : Nat} (hn : 0 < n) : Starts (sgnMyriads b n) := by
  unfold sgnMyriads
  split_ifs with h
  · exact starts_thousands hn
  · rcases starts_thousands (b := b) (n := n / 10000) (by omega) with ⟨d, r, e⟩ | ⟨r, e⟩ <;> rw [e] <;> simp [Starts]

theorem afterW_single {n d : Nat} : sgnAfterW n ≠ [D d] := by
  unfold sgnAfterW
  split_ifs
  · simp
  · simp
  · unfold sgnThousands
    rw [if_neg (by omega)]
    simp

theorem afterW_rest {n m : Nat} (hn : n < 10000) (h : E3s (sgnAfterW n) m) : m = n := by
  unfold sgnAfterW at h
  split_ifs at h with h0 h1
  · have := h.mem; simp [v3, v2, v1, vUnit] at this
  · rw [hundreds_eq h1] at h
    have := h.zero.1
    rcases starts_thousands (b := false) (n := n) (by omega) with ⟨d, r, e⟩ | ⟨r, e⟩ <;> rw [e] at this <;> cases this
  · exact thousands_unique (by omega) hn h.mem

theorem afterW_gap {n m : Nat} {s : List Sign} (hn : n < 10000) (e : sgnAfterW n = Z :: s) (h : E3s s m) : m = n := by
  unfold sgnAfterW at e
  split_ifs at e with h0 h1
  · rw [hundreds_eq h1] at e
    obtain ⟨-, rfl⟩ := List.cons.inj e
    exact thousands_unique (by omega) hn h.mem
  · rcases starts_thousands (b := false) (n := n) (by omega) with ⟨d, r, e'⟩ | ⟨r, e'⟩ <;> rw [e'] at e <;> cases e

theorem E4s.below_of {s : List Sign} {n : Nat} (h : E4s s n) (hw : W ∉ s) : E3s s n := by
  cases h with
  | unit g1 g2 => subst g2; simp at hw
  | short g1 g2 g3 => subst g2; simp at hw
  | rest g1 g2 g3 => subst g2; simp at hw
  | gap g1 g2 g3 => subst g2; simp at hw
  | below g => exact g

theorem myriads_unique {b : Bool} {n m : Nat} (hn : 0 < n) (hn' : n < 100000000) (h : E4s (sgnMyriads b n) m) : m = n := by
  unfold sgnMyriads at h
  split_ifs at h with h0
  · exact thousands_unique hn (by omega) (h.below_of (thousands_ok hn (by omega)).noUnit.1).mem
  · have hP := thousands_ok (b := b) (n := n / 10000) (by omega) (by omega)
    have hv : ∀ {m : Nat}, E3s (sgnThousands b (n / 10000)) m → m = n / 10000 := fun h =>
      thousands_unique (by omega) (by omega) h.mem
    generalize hs : sgnThousands b (n / 10000) ++ W :: sgnAfterW (n % 10000) = s at h
    cases h with
    | unit g1 g2 =>
      subst g2
      obtain ⟨rfl, e⟩ := split_at hs hP.noUnit.1 g1.noUnit.1
      have := hv g1
      have : n % 10000 = 0 := by
        unfold sgnAfterW at e
        split_ifs at e with k1 k2
        · exact k1
        · rcases starts_thousands (b := false) (n := n % 10000) (by omega) with ⟨d, r, e'⟩ | ⟨r, e'⟩ <;> rw [e'] at e <;> cases e
      omega
    | short g1 g2 g3 =>
      subst g2
      obtain ⟨rfl, e⟩ := split_at (by simpa using hs) hP.noUnit.1 g1.noUnit.1
      exact absurd e afterW_single
    | rest g1 g2 g3 =>
      subst g2
      obtain ⟨rfl, e⟩ := split_at (by simpa using hs) hP.noUnit.1 g1.noUnit.1
      have := hv g1
      have := afterW_rest (n := n % 10000) (by omega) (e ▸ g3)
      omega
    | gap g1 g2 g3 =>
      subst g2
      obtain ⟨rfl, e⟩ := split_at (by simpa using hs) hP.noUnit.1 g1.noUnit.1
      have := hv g1
      have := afterW_gap (n := n % 10000) (by omega) e g3
      omega
    | below g => exact absurd (hs ▸ by simp) g.noUnit.1

theorem myriads_ok {b : Bool} {n : Nat} (hn : 0 < n) (hn' : n < 100000000) : E4s (sgnMyriads b n) n := by
  unfold sgnMyriads
  split_ifs with h0
  · exact .below (thousands_ok hn (by omega))
  · have hP := thousands_ok (b := b) (n := n / 10000) (by omega) (by omega)
    unfold sgnAfterW
    split_ifs with h1 h2
    · have : E4s (sgnThousands b (n / 10000) ++ [W]) (n / 10000 * (1000 * 10)) := .unit hP rfl
      rwa [show n / 10000 * (1000 * 10) = n by omega] at this
    · rw [hundreds_eq h2]
      have : E4s (sgnThousands b (n / 10000) ++ ([W] ++ Z :: sgnThousands false (n % 10000))) (n / 10000 * (1000 * 10) + n % 10000) :=
        .gap hP rfl (thousands_ok (by omega) (by omega))
      rwa [show n / 10000 * (1000 * 10) + n % 10000 = n by omega] at this
    · have : E4s (sgnThousands b (n / 10000) ++ ([W] ++ sgnThousands false (n % 10000))) (n / 10000 * (1000 * 10) + n % 10000) :=
        .rest hP rfl (thousands_ok (by omega) (by omega))
      rwa [show n / 10000 * (1000 * 10) + n % 10000 = n by omega] at this

/-! ## all -/

theorem E4s.zero {s : List Sign} {n : Nat} (h : E4s (Z :: s) n) (hs : Starts s) : False := by
  have split : ∀ {a c : List Sign} {m : Nat}, E3s a m → Z :: s = a ++ W :: c → False := by
    intro a c m ha e
    cases a with
    | nil => have := ha.mem; simp [v3, v2, v1, vUnit] at this
    | cons x a =>
      rw [List.cons_append] at e
      obtain ⟨rfl, rfl⟩ := List.cons.inj e
      rw [ha.zero.1] at hs
      rcases hs with ⟨d, r, e⟩ | ⟨r, e⟩ <;> cases e
  generalize e : Z :: s = s' at h
  cases h with
  | unit g1 g2 => subst g2; exact split g1 e
  | short g1 g2 g3 => subst g2; exact split g1 e
  | rest g1 g2 g3 => subst g2; exact split g1 e
  | gap g1 g2 g3 => subst g2; exact split g1 e
  | below g =>
    subst e
    rw [g.zero.1] at hs
    rcases hs with ⟨d, r, e⟩ | ⟨r, e⟩ <;> cases e

theorem not_E4s_nil {n : Nat} : ¬ E4s [] n := by
  intro h
  have := (h.below_of (by simp)).mem
  simp [v3, v2, v1, vUnit] at this

theorem afterY_single {n d : Nat} : sgnAfterY n ≠ [D d] := by
  unfold sgnAfterY
  split_ifs
  · simp
  · simp
  · unfold sgnMyriads
    rw [if_neg (by omega)]
    rcases starts_thousands (b := false) (n := n / 10000) (by omega) with ⟨d, r, e'⟩ | ⟨r, e'⟩ <;> rw [e'] <;> simp

theorem afterY_rest {n m : Nat} (hn : n < 100000000) (h : E4s (sgnAfterY n) m) : m = n := by
  unfold sgnAfterY at h
  split_ifs at h with h0 h1
  · exact absurd h not_E4s_nil
  · exact (h.zero (starts_myriads (by omega))).elim
  · exact myriads_unique (by omega) hn h

theorem afterY_gap {n m : Nat} {s : List Sign} (hn : n < 100000000) (e : sgnAfterY n = Z :: s) (h : E4s s m) : m = n := by
  unfold sgnAfterY at e
  split_ifs at e with h0 h1
  · obtain ⟨-, rfl⟩ := List.cons.inj e
    exact myriads_unique (by omega) hn h
  · rcases starts_myriads (b := false) (n := n) (by omega) with ⟨d, r, e'⟩ | ⟨r, e'⟩ <;> rw [e'] at e <;> cases e

theorem afterY_count {n : Nat} (hn : n < 100000000) : (sgnAfterY n).count W ≤ 1 := by
  unfold sgnAfterY
  split_ifs with h0 h1
  · simp
  · simpa using (myriads_ok (b := false) (n := n) (by omega) hn).noUnit.2
  · exact (myriads_ok (by omega) hn).noUnit.2

theorem E8s.below_of {s : List Sign} {n : Nat} (h : E8s s n) (hy : Y ∉ s) (hww : hasWW s = false) : E4s s n := by
  cases h with
  | unit g1 g2 =>
    rcases g2 with rfl | rfl
    · simp at hy
    · rw [hasWW_of] at hww; cases hww
  | short g1 g2 g3 =>
    rcases g2 with rfl | rfl
    · simp at hy
    · rw [List.cons_append, List.cons_append, hasWW_of] at hww; cases hww
  | rest g1 g2 g3 =>
    rcases g2 with rfl | rfl
    · simp at hy
    · rw [List.cons_append, List.cons_append, hasWW_of] at hww; cases hww
  | gap g1 g2 g3 =>
    rcases g2 with rfl | rfl
    · simp at hy
    · rw [List.cons_append, List.cons_append, hasWW_of] at hww; cases hww
  | below g => exact g

theorem number_unique {b : Bool} {n m : Nat} (hn' : n < 10 ^ 16) (h : E8s (sgnNumber b n) m) : m = n := by
  unfold sgnNumber at h
  split_ifs at h with hn h0
  · have := ((h.below_of (by simp) rfl).below_of (by simp)).mem
    simp [v3, v2, v1, vUnit] at this
    omega
  · have := (myriads_ok (b := b) (n := n) (by omega) (by omega)).noUnit
    exact myriads_unique (by omega) (by omega) (h.below_of this.1 (noWW_count this.2))
  · have hP := myriads_ok (b := b) (n := n / 100000000) (by omega) (by omega)
    have hv : ∀ {m : Nat}, E4s (sgnMyriads b (n / 100000000)) m → m = n / 100000000 := fun h =>
      myriads_unique (by omega) (by omega) h
    have hww := noWW_split hP.noUnit.2 (afterY_count (n := n % 100000000) (by omega))
    generalize hs : sgnMyriads b (n / 100000000) ++ Y :: sgnAfterY (n % 100000000) = s at h
    rw [hs] at hww
    cases h with
    | unit g1 g2 =>
      rcases g2 with rfl | rfl
      · obtain ⟨rfl, e⟩ := split_at hs hP.noUnit.1 g1.noUnit.1
        have := hv g1
        have : n % 100000000 = 0 := by
          unfold sgnAfterY at e
          split_ifs at e with k1 k2
          · exact k1
          · rcases starts_myriads (b := false) (n := n % 100000000) (by omega) with ⟨d, r, e'⟩ | ⟨r, e'⟩ <;> rw [e'] at e <;> cases e
        omega
      · rw [hasWW_of] at hww; cases hww
    | short g1 g2 g3 =>
      rcases g2 with rfl | rfl
      · obtain ⟨rfl, e⟩ := split_at (by simpa using hs) hP.noUnit.1 g1.noUnit.1
        exact absurd e afterY_single
      · rw [List.cons_append, List.cons_append, hasWW_of] at hww; cases hww
    | rest g1 g2 g3 =>
      rcases g2 with rfl | rfl
      · obtain ⟨rfl, e⟩ := split_at (by simpa using hs) hP.noUnit.1 g1.noUnit.1
        have := hv g1
        have := afterY_rest (n := n % 100000000) (by omega) (e ▸ g3)
        omega
      · rw [List.cons_append, List.cons_append, hasWW_of] at hww; cases hww
    | gap g1 g2 g3 =>
      rcases g2 with rfl | rfl
      · obtain ⟨rfl, e⟩ := split_at (by simpa using hs) hP.noUnit.1 g1.noUnit.1
        have := hv g1
        have := afterY_gap (n := n % 100000000) (by omega) e g3
        omega
      · rw [List.cons_append, List.cons_append, hasWW_of] at hww; cases hww
    | below g => exact absurd (hs ▸ by simp) g.noUnit.1

theorem sgnNumber_ok {b : Bool} {n : Nat} (hn' : n < 10 ^ 16) : E8s (sgnNumber b n) n := by
  unfold sgnNumber
  split_ifs with hn h0
  · subst hn; exact .below (.below (.below (.below .zero)))
  · exact .below (myriads_ok (by omega) (by omega))
  · have hP := myriads_ok (b := b) (n := n / 100000000) (by omega) (by omega)
    unfold sgnAfterY
    split_ifs with h1 h2
    · have : E8s (sgnMyriads b (n / 100000000) ++ [Y]) (n / 100000000 * (10000000 * 10)) := .unit hP (.inl rfl)
      rwa [show n / 100000000 * (10000000 * 10) = n by omega] at this
    · have : E8s (sgnMyriads b (n / 100000000) ++ ([Y] ++ Z :: sgnMyriads false (n % 100000000)))
          (n / 100000000 * (10000000 * 10) + n % 100000000) :=
        .gap hP (.inl rfl) (myriads_ok (by omega) (by omega))
      rwa [show n / 100000000 * (10000000 * 10) + n % 100000000 = n by omega] at this
    · have : E8s (sgnMyriads b (n / 100000000) ++ ([Y] ++ sgnMyriads false (n % 100000000)))
          (n / 100000000 * (10000000 * 10) + n % 100000000) :=
        .rest hP (.inl rfl) (myriads_ok (by omega) (by omega))
      rwa [show n / 100000000 * (10000000 * 10) + n % 100000000 = n by omega] at this

theorem starts_number {b : Bool} {n : Nat} : Starts (sgnNumber b n) ∨ sgnNumber b n = [Z] := by
  unfold sgnNumber
  split_ifs with hn h0
  · exact .inr rfl
  · exact .inl (starts_myriads (by omega))
  · rcases starts_myriads (b := b) (n := n / 100000000) (by omega) with ⟨d, r, e⟩ | ⟨r, e⟩ <;> rw [e] <;> simp [Starts]

/-- A numeral has one value. -/
theorem zhSigns_unique {b : Bool} {n m : Nat} (hn' : n < 10 ^ 16) (h : ZhSigns (sgnNumber b n) m) : m = n := by
  have hd := starts_number (b := b) (n := n)
  generalize hs : sgnNumber b n = s at h hd
  cases h with
  | number h => exact number_unique (b := b) hn' (hs ▸ h)
  | hundred => simp [Starts] at hd
  | thousand => simp [Starts] at hd
  | myriad => simp [Starts] at hd
  | yi => simp [Starts] at hd
  | yi' => simp [Starts] at hd

/-! ## variants of the characters -/

theorem sign_variants : ∀ v ∈ zhVariants, ∀ c ∈ v, ∀ c' ∈ v, sign c = sign c' ∧ c ≠ '点' := by decide +kernel

theorem ZhNumeral.signs {n : Nat} {l : List Char} (h : ZhNumeral n l) (hn : n < 10 ^ 16) :
    (∃ b, l.map sign = sgnNumber b n) ∧ '点' ∉ l := by
  obtain ⟨b, h⟩ := h
  have : ∀ {l l' : List Char}, List.Forall₂ (fun c c' => ∃ v ∈ zhVariants, c ∈ v ∧ c' ∈ v) l l' →
      l.map sign = l'.map sign ∧ '点' ∉ l := by
    intro l l' h
    induction h with
    | nil => exact ⟨rfl, by simp⟩
    | cons h _ ih =>
      obtain ⟨v, hv, h1, h2⟩ := h
      obtain ⟨g1, g2⟩ := sign_variants v hv _ h1 _ h2
      exact ⟨by rw [List.map_cons, List.map_cons, g1, ih.1], by
        rw [List.mem_cons, not_or]; exact ⟨fun e => g2 e.symm, ih.2⟩⟩
  exact ⟨⟨b, by rw [(this h).1, map_number hn]⟩, (this h).2⟩

/-- The grammar derives every numeral, and only with its value. -/
theorem number_reads {n : Nat} {l : List Char} (h : ZhNumeral n l) (hn' : n < 10 ^ 16) :
    (∃ v, CharLang zhW "number" l v) ∧ ∀ v, CharLang zhW "number" l v → v = some n := by
  obtain ⟨⟨b, e⟩, hp⟩ := h.signs hn'
  refine ⟨number_covers (n := n) (e ▸ sgnNumber_ok hn'), fun v hv => ?_⟩
  obtain ⟨m, h1, h2⟩ := number_sounds hp hv
  have := zhSigns_unique hn' (e ▸ h1)
  subst this
  exact h2

end Fmr
