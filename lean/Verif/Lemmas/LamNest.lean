import Verif.Lemmas.LamParents

/-! # Nested rings: every hole gets the ring just around it -/
set_option linter.unusedSectionVars false
namespace GeoCrossings
open Spec

variable {K : Type} [Field K] [LinearOrder K] [IsStrictOrderedRing K]
variable {geom : Nat → LineOrPoint K} {input : List Nat} {pos pt : Pt K} {l e s u : List Nat}
variable {isHole : Nat → Bool} {ringOf : Nat → Nat} {n : Nat}

/-- An odd number of the edges belongs to ring `k`. -/
def Par (ringOf : Nat → Nat) (k : Nat) (l : List Nat) : Prop := Odd (l.countP fun c => decide (ringOf c = k))

/-- `v` is inside ring `k`. -/
def InRing (geom : Nat → LineOrPoint K) (input : List Nat) (ringOf : Nat → Nat) (k : Nat) (v : Pt K) : Prop :=
  Odd (input.countP fun c => decide (ringOf c = k ∧ Under v (geom c).first (geom c).second))

/-- The edge `c` is inside ring `k`. -/
def Side (geom : Nat → LineOrPoint K) (input : List Nat) (ringOf : Nat → Nat) (c k : Nat) : Prop :=
  Odd (input.countP fun d => decide (ringOf d = k ∧ BelowStart geom c d))

/-- Ring `r` is inside another ring `k`. -/
def RingIn (geom : Nat → LineOrPoint K) (input : List Nat) (ringOf : Nat → Nat) (r k : Nat) : Prop :=
  k ≠ r ∧ ∃ c ∈ input, ringOf c = r ∧ Side geom input ringOf c k

theorem par_append {k : Nat} {a b : List Nat} : Par ringOf k (a ++ b) ↔ (Par ringOf k a ↔ ¬ Par ringOf k b) := by
  unfold Par
  rw [List.countP_append, Nat.odd_add, Nat.not_odd_iff_even]

theorem par_nil {k : Nat} : ¬ Par ringOf k [] := by unfold Par; simp

theorem par_other {k r : Nat} {s : List Nat} (h : ∀ c ∈ s, ringOf c = r) (hk : k ≠ r) : ¬ Par ringOf k s := by
  unfold Par
  have : s.countP (fun c => decide (ringOf c = k)) = 0 := by
    rw [List.countP_eq_zero]
    intro c hc e
    exact hk ((of_decide_eq_true e).symm.trans (h c hc))
  rw [this]; simp

theorem par_single {k c : Nat} : Par ringOf k [c] ↔ ringOf c = k := by
  unfold Par
  rw [List.countP_singleton]
  by_cases h : ringOf c = k <;> simp [h]

theorem par_snoc {k c : Nat} {m : List Nat} (h : k ≠ ringOf c) : Par ringOf k (m ++ [c]) ↔ Par ringOf k m := by
  have : ¬ Par ringOf k [c] := by rw [par_single]; exact Ne.symm h
  rw [par_append]; tauto

/-- The parity of the edges of other rings. -/
theorem par_rest {r : Nat} {A B : List Nat} (hA : ∀ c ∈ A, ringOf c < n) (hB : ∀ c ∈ B, ringOf c < n)
    (h : ∀ k, k ≠ r → (Par ringOf k A ↔ Par ringOf k B)) :
    Odd (A.countP fun c => decide (ringOf c ≠ r)) ↔ Odd (B.countP fun c => decide (ringOf c ≠ r)) := by
  have key : ∀ m, Odd (A.countP fun c => decide (ringOf c ≠ r ∧ ringOf c < m)) ↔ Odd (B.countP fun c => decide (ringOf c ≠ r ∧ ringOf c < m)) := by
    intro m
    induction m with
    | zero => simp
    | succ m ih =>
      have split : ∀ l : List Nat, l.countP (fun c => decide (ringOf c ≠ r ∧ ringOf c < m + 1)) =
          l.countP (fun c => decide (ringOf c ≠ r ∧ ringOf c < m)) + if m = r then 0 else l.countP fun c => decide (ringOf c = m) := by
        intro l
        induction l with
        | nil => simp
        | cons c l ih =>
          simp only [List.countP_cons, ih, decide_eq_true_eq]
          by_cases h1 : m = r
          · have : (ringOf c ≠ r ∧ ringOf c < m + 1) ↔ (ringOf c ≠ r ∧ ringOf c < m) := by omega
            simp only [this, if_pos h1]; omega
          · simp only [if_neg h1]
            by_cases h2 : ringOf c = m
            · have a1 : ringOf c ≠ r ∧ ringOf c < m + 1 := by omega
              have a2 : ¬ (ringOf c ≠ r ∧ ringOf c < m) := by omega
              rw [if_pos a1, if_neg a2, if_pos h2]; omega
            · have : (ringOf c ≠ r ∧ ringOf c < m + 1) ↔ (ringOf c ≠ r ∧ ringOf c < m) := by omega
              simp only [this, if_neg h2]; omega
      rw [split, split]
      by_cases h1 : m = r
      · simp only [if_pos h1, Nat.add_zero]; exact ih
      · simp only [if_neg h1]
        rw [Nat.odd_add, Nat.odd_add, ih, ← Nat.not_odd_iff_even, ← Nat.not_odd_iff_even]
        have := h m h1
        unfold Par at this
        rw [this]
  have e : ∀ l : List Nat, (∀ c ∈ l, ringOf c < n) → l.countP (fun c => decide (ringOf c ≠ r)) = l.countP fun c => decide (ringOf c ≠ r ∧ ringOf c < n) := by
    intro l hl
    refine List.countP_congr fun c hc => ?_
    simp [hl c hc]
  rw [e A hA, e B hB]
  exact key n

theorem length_split (r : Nat) (l : List Nat) :
    l.length = l.countP (fun c => decide (ringOf c = r)) + l.countP fun c => decide (ringOf c ≠ r) := by
  rw [List.length_eq_countP_add_countP (fun c => decide (ringOf c = r))]
  congr 1
  refine List.countP_congr fun c _ => by simp

theorem par_all {k : Nat} {m : List Nat} (h : ∀ c ∈ m, ringOf c = k) : Par ringOf k m ↔ Odd m.length := by
  unfold Par
  have : m.countP (fun c => decide (ringOf c = k)) = m.length := by
    rw [List.countP_eq_length]
    intro c hc; exact decide_eq_true (h c hc)
  rw [this]

theorem count3 {a b c : Nat} (hab : a ≠ b) (hac : a ≠ c) (hbc : b ≠ c) (m : List Nat) :
    m.countP (fun d => decide (ringOf d = a)) + m.countP (fun d => decide (ringOf d = b)) + m.countP (fun d => decide (ringOf d = c)) ≤ m.length := by
  induction m with
  | nil => simp
  | cons d m ih =>
    simp only [List.countP_cons, decide_eq_true_eq, List.length_cons]
    by_cases h1 : ringOf d = a
    · rw [if_pos h1, if_neg (by omega), if_neg (by omega)]; omega
    · rw [if_neg h1]
      by_cases h2 : ringOf d = b
      · rw [if_pos h2, if_neg (by omega)]; omega
      · rw [if_neg h2]
        split <;> omega

/-- What is known of the edges, when at each vertex at most four edges meet. `W` tells which edges have
the region below them. -/
structure NestOk (geom : Nat → LineOrPoint K) (input : List Nat) (ringOf : Nat → Nat) (isHole : Nat → Bool) (n : Nat) (W : Nat → Bool) : Prop
    extends RingEdgesOk geom input ringOf isHole n where
  four : ∀ v, input.countP (fun c => (geom c).first = v) + input.countP (fun c => (geom c).second = v) ≤ 4
  evenR : ∀ k v, Even (input.countP (fun c => ringOf c = k ∧ (geom c).first = v) + input.countP (fun c => ringOf c = k ∧ (geom c).second = v))
  twoR : ∀ k v, input.countP (fun c => ringOf c = k ∧ (geom c).first = v) + input.countP (fun c => ringOf c = k ∧ (geom c).second = v) ≤ 2
  conn : ∀ (F : Pt K → Prop) k, (∀ c ∈ input, ringOf c = k → (F (geom c).first ↔ F (geom c).second)) →
    ∀ c ∈ input, ∀ d ∈ input, ringOf c = k → ringOf d = k → (F (geom c).first ↔ F (geom d).first)
  wind : ∀ c ∈ input, (W c = true ↔ Odd (input.countP fun d => decide (BelowStart geom c d)))
  dirF : ∀ c ∈ input, ∀ d ∈ input, c ≠ d → ringOf c = ringOf d → (geom c).first = (geom d).first → W c ≠ W d
  dirS : ∀ c ∈ input, ∀ d ∈ input, c ≠ d → ringOf c = ringOf d → (geom c).second = (geom d).second → W c ≠ W d
  dirP : ∀ c ∈ input, ∀ d ∈ input, ringOf c = ringOf d → (geom c).second = (geom d).first → W c = W d

namespace NestOk
variable {W : Nat → Bool}

theorem lt (H : NestOk geom input ringOf isHole n W) : ∀ c ∈ input, (geom c).first < (geom c).second := fun _ hc => (H.he.ends hc).2.2

theorem at_pt (hs : ColStep geom input pos pt l e s u) {c : Nat} (hc : c ∈ e ++ s) : c ∈ input ∧ ((geom c).first = pt ∨ (geom c).second = pt) := by
  rcases List.mem_append.1 hc with h | h
  · obtain ⟨h1, h2⟩ := (hs.ends c).1 h; exact ⟨h1, .inr h2⟩
  · obtain ⟨h1, h2⟩ := (hs.starts c).1 h; exact ⟨h1, .inl h2⟩

theorem nodup_es (H : NestOk geom input ringOf isHole n W) (hs : ColStep geom input pos pt l e s u) : (e ++ s).Nodup := by
  obtain ⟨-, h2, h3, -⟩ := hs.nodup3
  rw [List.nodup_append']
  refine ⟨h2, h3, ?_⟩
  intro c hc hc'
  have := H.lt c ((hs.ends c).1 hc).1
  rw [((hs.ends c).1 hc).2, ((hs.starts c).1 hc').2] at this
  exact lt_irrefl _ this

theorem count_es (H : NestOk geom input ringOf isHole n W) (hs : ColStep geom input pos pt l e s u) (k : Nat) :
    (e ++ s).countP (fun c => decide (ringOf c = k)) =
      input.countP (fun c => ringOf c = k ∧ (geom c).first = pt) + input.countP (fun c => ringOf c = k ∧ (geom c).second = pt) := by
  obtain ⟨-, h2, h3, -⟩ := hs.nodup3
  have e1 := (ColStep.perm_filter h2 H.he.nodup hs.ends).countP_eq fun c => decide (ringOf c = k)
  have e2 := (ColStep.perm_filter h3 H.he.nodup hs.starts).countP_eq fun c => decide (ringOf c = k)
  rw [List.countP_filter] at e1 e2
  rw [List.countP_append, e1, e2, Nat.add_comm]
  simp only [← Bool.decide_and]

theorem length_es (H : NestOk geom input ringOf isHole n W) (hs : ColStep geom input pos pt l e s u) : (e ++ s).length ≤ 4 := by
  obtain ⟨-, h2, h3, -⟩ := hs.nodup3
  have e1 := (ColStep.perm_filter h2 H.he.nodup hs.ends).length_eq
  have e2 := (ColStep.perm_filter h3 H.he.nodup hs.starts).length_eq
  rw [← List.countP_eq_length_filter] at e1 e2
  rw [List.length_append, e1, e2, Nat.add_comm]
  exact H.four pt

/-- The edges that end and start are even in number, for each ring. -/
theorem parR (H : NestOk geom input ringOf isHole n W) (hs : ColStep geom input pos pt l e s u) (k : Nat) : Par ringOf k e ↔ Par ringOf k s := by
  have h1 := H.count_es hs k
  have h2 := H.evenR k pt
  rw [← h1, List.countP_append, Nat.even_add] at h2
  unfold Par
  rw [← Nat.not_even_iff_odd, ← Nat.not_even_iff_odd, h2]

/-- A ring has at most two edges at the vertex. -/
theorem only_two (H : NestOk geom input ringOf isHole n W) (hs : ColStep geom input pos pt l e s u) {c c' d : Nat} (hc : c ∈ e ++ s) (hc' : c' ∈ e ++ s)
    (hd : d ∈ e ++ s) (hne : c ≠ c') (h1 : ringOf c' = ringOf c) (h2 : ringOf d = ringOf c) : d = c ∨ d = c' := by
  by_contra hno
  push Not at hno
  have h3 := H.twoR (ringOf c) pt
  rw [← H.count_es hs, List.countP_eq_length_filter] at h3
  have hsub : [c, c', d] ⊆ (e ++ s).filter fun d => decide (ringOf d = ringOf c) := by
    intro x hx
    simp only [List.mem_cons, List.not_mem_nil, or_false] at hx
    rw [List.mem_filter, decide_eq_true_eq]
    rcases hx with rfl | rfl | rfl
    · exact ⟨hc, rfl⟩
    · exact ⟨hc', h1⟩
    · exact ⟨hd, h2⟩
  have hnd : [c, c', d].Nodup := by simp [hne, hno.1.symm, hno.2.symm]
  have := (List.subperm_of_subset hnd hsub).length_le
  simp only [List.length_cons, List.length_nil] at this
  omega

/-- At most two rings have edges at the vertex. -/
theorem two_rings (H : NestOk geom input ringOf isHole n W) (hs : ColStep geom input pos pt l e s u) {c d d' : Nat} (hc : c ∈ e ++ s) (hd : d ∈ e ++ s)
    (hd' : d' ∈ e ++ s) (h1 : ringOf d ≠ ringOf c) (h2 : ringOf d' ≠ ringOf c) : ringOf d' = ringOf d := by
  by_contra hno
  have key : ∀ x ∈ e ++ s, 2 ≤ (e ++ s).countP fun y => decide (ringOf y = ringOf x) := by
    intro x hx
    have h3 := H.evenR (ringOf x) pt
    rw [← H.count_es hs] at h3
    have h4 : 0 < (e ++ s).countP fun y => decide (ringOf y = ringOf x) := List.countP_pos_iff.2 ⟨x, hx, by simp⟩
    rw [Nat.even_iff] at h3
    omega
  have := count3 (ringOf := ringOf) h1.symm h2.symm (fun h => hno h.symm) (e ++ s)
  have k1 := key c hc
  have k2 := key d hd
  have k3 := key d' hd'
  have k4 := H.length_es hs
  omega

theorem prefix_par (H : NestOk geom input ringOf isHole n W) {c1 : List Nat} {q : Pt K} (hn : c1.Nodup)
    (h : ∀ c, c ∈ c1 ↔ c ∈ input ∧ Under q (geom c).first (geom c).second) (k : Nat) : Par ringOf k c1 ↔ InRing geom input ringOf k q := by
  have e1 := (ColStep.perm_filter hn H.he.nodup h).countP_eq fun c => decide (ringOf c = k)
  rw [List.countP_filter] at e1
  unfold Par InRing
  rw [e1]
  simp only [← Bool.decide_and]

theorem low_par (H : NestOk geom input ringOf isHole n W) (hs : ColStep geom input pos pt l e s u) (k : Nat) :
    Par ringOf k l ↔ InRing geom input ringOf k pt := H.prefix_par hs.nodup3.1 (hs.under H.lt) k

theorem start_perm (H : NestOk geom input ringOf isHole n W) (hs : ColStep geom input pos pt l e s u) {s1 s2 : List Nat} {c : Nat} (h : s = s1 ++ c :: s2) :
    (l ++ s1).Perm (input.filter fun d => decide (BelowStart geom c d)) := hs.start_perm H.lt H.he.nodup h

theorem start_side (H : NestOk geom input ringOf isHole n W) (hs : ColStep geom input pos pt l e s u) {s1 s2 : List Nat} {c : Nat} (h : s = s1 ++ c :: s2)
    (k : Nat) : Par ringOf k (l ++ s1) ↔ Side geom input ringOf c k := by
  have e1 := (H.start_perm hs h).countP_eq fun d => decide (ringOf d = k)
  rw [List.countP_filter] at e1
  unfold Par Side
  rw [e1]
  simp only [← Bool.decide_and]

theorem start_wind (H : NestOk geom input ringOf isHole n W) (hs : ColStep geom input pos pt l e s u) {s1 s2 : List Nat} {c : Nat} (h : s = s1 ++ c :: s2) :
    W c = true ↔ Odd (l ++ s1).length := by
  rw [H.wind c ((hs.starts c).1 (by rw [h]; simp)).1, (H.start_perm hs h).length_eq, ← List.countP_eq_length_filter]

end NestOk

/-! ## Being inside another ring does not change along a ring -/

structure SideInv (geom : Nat → LineOrPoint K) (input : List Nat) (ringOf : Nat → Nat) (W : Nat → Bool) (pos : Pt K) (col : List Nat) : Prop where
  wnd : ∀ l c u, col = l ++ c :: u → (W c = true ↔ Odd l.length)
  pre : ∀ l c u, col = l ++ c :: u → ∀ k, k ≠ ringOf c → (Par ringOf k l ↔ Side geom input ringOf c k)
  done : ∀ c ∈ input, ∀ d ∈ input, ringOf c = ringOf d → ∀ v, v ≤ pos → (geom c).first = v ∨ (geom c).second = v →
    (geom d).first = v ∨ (geom d).second = v → ∀ k, k ≠ ringOf c → (Side geom input ringOf c k ↔ Side geom input ringOf d k)

section
variable {W : Nat → Bool}

/-- Two edges of a ring in the same block at a vertex: between them is an even number of edges of the other ring. -/
theorem between {k r : Nat} {m0 m : List Nat} {c : Nat} (hc : ringOf c = r) (hk : k ≠ r) (hm : ∀ d ∈ m, ringOf d = k) (hev : Even m.length) :
    Par ringOf k (m0 ++ c :: m) ↔ Par ringOf k m0 := by
  have h1 : ¬ Par ringOf k [c] := by rw [par_single, hc]; exact Ne.symm hk
  have h2 : ¬ Par ringOf k m := by rw [par_all hm, Nat.not_odd_iff_even]; exact hev
  rw [show m0 ++ c :: m = m0 ++ ([c] ++ m) by simp, par_append, par_append]
  tauto

theorem SideInv.step (H : NestOk geom input ringOf isHole n W) (hs : ColStep geom input pos pt l e s u)
    (h : SideInv geom input ringOf W pos (l ++ e ++ u)) : SideInv geom input ringOf W pt (l ++ s ++ u) := by
  have hev : Even (e.length + s.length) := hs.parity H.he.nodup (by simpa using H.he.even true pt)
  -- one edge of the pair is below the other one, in the same block
  have blockE : ∀ e1 m e3 c d, e = e1 ++ c :: (m ++ d :: e3) → ringOf c = ringOf d → ∀ k, k ≠ ringOf c → (∃ x ∈ e ++ s, ringOf x = k) →
      (Side geom input ringOf c k ↔ Side geom input ringOf d k) := by
    intro e1 m e3 c d hE hcd k hk hx
    obtain ⟨x, hx, hxk⟩ := hx
    have hce : c ∈ e := by rw [hE]; simp
    have hde : d ∈ e := by rw [hE]; simp
    have hne : c ≠ d := by
      have := hs.nodup3.2.1
      rw [hE, List.nodup_append'] at this
      have := (List.nodup_cons.1 this.2.1).1
      rintro rfl
      simp at this
    have hw := H.dirS c ((hs.ends c).1 hce).1 d ((hs.ends d).1 hde).1 hne hcd (by rw [((hs.ends c).1 hce).2, ((hs.ends d).1 hde).2])
    have w1 := h.wnd (l ++ e1) c (m ++ d :: e3 ++ u) (by rw [hE]; simp)
    have w2 := h.wnd (l ++ (e1 ++ c :: m)) d (e3 ++ u) (by rw [hE]; simp)
    have hmk : ∀ y ∈ m, ringOf y = k := by
      intro y hy
      have hye : y ∈ e := by rw [hE]; simp [hy]
      rw [← hxk]
      refine H.two_rings hs (c := c) (by simp [hce]) hx (by simp [hye]) (by rw [hxk]; exact hk) ?_
      intro hyr
      have hn := hs.nodup3.2.1
      rcases H.only_two hs (by simp [hce]) (by simp [hde]) (by simp [hye]) hne hcd.symm hyr with rfl | rfl
      · rw [hE, List.nodup_append'] at hn
        have := (List.nodup_cons.1 hn.2.1).1
        simp [hy] at this
      · rw [hE, show e1 ++ c :: (m ++ y :: e3) = (e1 ++ c :: m) ++ y :: e3 by simp, List.nodup_append'] at hn
        exact hn.2.2 (by simp [hy]) (List.mem_cons_self)
    have hme : Even m.length := by
      have : ¬ (Odd (l ++ e1).length ↔ Odd (l ++ (e1 ++ c :: m)).length) := by
        rw [← w1, ← w2]
        intro q
        refine hw ?_
        cases h1 : W c <;> cases h2 : W d <;> simp_all
      simp only [List.length_append, List.length_cons, Nat.odd_iff] at this
      rw [Nat.even_iff]; omega
    rw [← h.pre (l ++ e1) c (m ++ d :: e3 ++ u) (by rw [hE]; simp) k hk,
      ← h.pre (l ++ (e1 ++ c :: m)) d (e3 ++ u) (by rw [hE]; simp) k (by rw [← hcd]; exact hk), ← List.append_assoc]
    exact (between rfl hk hmk hme).symm
  have blockS : ∀ e1 m e3 c d, s = e1 ++ c :: (m ++ d :: e3) → ringOf c = ringOf d → ∀ k, k ≠ ringOf c → (∃ x ∈ e ++ s, ringOf x = k) →
      (Side geom input ringOf c k ↔ Side geom input ringOf d k) := by
    intro e1 m e3 c d hE hcd k hk hx
    obtain ⟨x, hx, hxk⟩ := hx
    have hce : c ∈ s := by rw [hE]; simp
    have hde : d ∈ s := by rw [hE]; simp
    have hE2 : s = (e1 ++ c :: m) ++ d :: e3 := by rw [hE]; simp
    have hne : c ≠ d := by
      have := hs.nodup3.2.2.1
      rw [hE, List.nodup_append'] at this
      have := (List.nodup_cons.1 this.2.1).1
      rintro rfl
      simp at this
    have hw := H.dirF c ((hs.starts c).1 hce).1 d ((hs.starts d).1 hde).1 hne hcd (by rw [((hs.starts c).1 hce).2, ((hs.starts d).1 hde).2])
    have w1 := H.start_wind hs hE
    have w2 := H.start_wind hs hE2
    have hmk : ∀ y ∈ m, ringOf y = k := by
      intro y hy
      have hye : y ∈ s := by rw [hE]; simp [hy]
      rw [← hxk]
      refine H.two_rings hs (c := c) (by simp [hce]) hx (by simp [hye]) (by rw [hxk]; exact hk) ?_
      intro hyr
      have hn := hs.nodup3.2.2.1
      rcases H.only_two hs (by simp [hce]) (by simp [hde]) (by simp [hye]) hne hcd.symm hyr with rfl | rfl
      · rw [hE, List.nodup_append'] at hn
        have := (List.nodup_cons.1 hn.2.1).1
        simp [hy] at this
      · rw [hE2, List.nodup_append'] at hn
        exact hn.2.2 (by simp [hy]) (List.mem_cons_self)
    have hme : Even m.length := by
      have : ¬ (Odd (l ++ e1).length ↔ Odd (l ++ (e1 ++ c :: m)).length) := by
        rw [← w1, ← w2]
        intro q
        refine hw ?_
        cases h1 : W c <;> cases h2 : W d <;> simp_all
      simp only [List.length_append, List.length_cons, Nat.odd_iff] at this
      rw [Nat.even_iff]; omega
    rw [← H.start_side hs hE, ← H.start_side hs hE2, ← List.append_assoc]
    exact (between rfl hk hmk hme).symm
  -- one ends and the other one starts
  have pass : ∀ c ∈ e, ∀ d ∈ s, ringOf c = ringOf d → ∀ k, k ≠ ringOf c → (∃ x ∈ e ++ s, ringOf x = k) →
      (Side geom input ringOf c k ↔ Side geom input ringOf d k) := by
    intro c hce d hds hcd k hk hx
    obtain ⟨x, hx, hxk⟩ := hx
    have hne : c ≠ d := by
      rintro rfl
      exact (List.nodup_append'.1 (H.nodup_es hs)).2.2 hce hds
    have hw := H.dirP c ((hs.ends c).1 hce).1 d ((hs.starts d).1 hds).1 hcd (by rw [((hs.ends c).1 hce).2, ((hs.starts d).1 hds).2])
    have hother : ∀ y ∈ e ++ s, y ≠ c → y ≠ d → ringOf y = k := by
      intro y hy y1 y2
      rw [← hxk]
      refine H.two_rings hs (c := c) (by simp [hce]) hx hy (by rw [hxk]; exact hk) ?_
      intro hyr
      rcases H.only_two hs (by simp [hce]) (by simp [hds]) hy hne hcd.symm hyr with rfl | rfl
      · exact y1 rfl
      · exact y2 rfl
    obtain ⟨e1, e2, hE⟩ := List.append_of_mem hce
    obtain ⟨s1, s2, hS⟩ := List.append_of_mem hds
    have k1 : ∀ y ∈ e1, ringOf y = k := by
      intro y hy
      have hn := H.nodup_es hs
      refine hother y (by rw [hE]; simp [hy]) ?_ ?_
      · rintro rfl
        rw [List.nodup_append', hE, List.nodup_append'] at hn
        exact hn.1.2.2 hy (List.mem_cons_self)
      · rintro rfl
        exact (List.nodup_append'.1 hn).2.2 (by rw [hE]; simp [hy]) hds
    have k2 : ∀ y ∈ s1, ringOf y = k := by
      intro y hy
      have hn := H.nodup_es hs
      refine hother y (by rw [hS]; simp [hy]) ?_ ?_
      · rintro rfl
        exact (List.nodup_append'.1 hn).2.2 hce (by rw [hS]; simp [hy])
      · rintro rfl
        rw [List.nodup_append', hS, List.nodup_append'] at hn
        exact hn.2.1.2.2 hy (List.mem_cons_self)
    have w1 := h.wnd (l ++ e1) c (e2 ++ u) (by rw [hE]; simp)
    have w2 := H.start_wind hs hS
    rw [← h.pre (l ++ e1) c (e2 ++ u) (by rw [hE]; simp) k hk, ← H.start_side hs hS, par_append, par_append, par_all k1, par_all k2]
    have : Odd e1.length ↔ Odd s1.length := by
      have : Odd (l ++ e1).length ↔ Odd (l ++ s1).length := by rw [← w1, ← w2, hw]
      simp only [List.length_append, Nat.odd_iff] at this ⊢
      omega
    rw [this]
  -- rings that are not at the vertex
  have away : ∀ c ∈ e ++ s, ∀ k, (∀ x ∈ e ++ s, ringOf x ≠ k) → (Side geom input ringOf c k ↔ Par ringOf k l) := by
    intro c hc k hno
    have nope : ∀ m, (∀ x ∈ m, x ∈ e ++ s) → ¬ Par ringOf k m := by
      intro m hm
      unfold Par
      have : m.countP (fun c => decide (ringOf c = k)) = 0 := by
        rw [List.countP_eq_zero]
        intro x hx q
        exact hno x (hm x hx) (of_decide_eq_true q)
      rw [this]; simp
    rcases List.mem_append.1 hc with hce | hcs
    · obtain ⟨e1, e2, hE⟩ := List.append_of_mem hce
      have := nope e1 (fun x hx => by rw [hE]; simp [hx])
      rw [← h.pre (l ++ e1) c (e2 ++ u) (by rw [hE]; simp) k (Ne.symm (hno c hc)), par_append]
      tauto
    · obtain ⟨s1, s2, hS⟩ := List.append_of_mem hcs
      have := nope s1 (fun x hx => by rw [hS]; simp [hx])
      rw [← H.start_side hs hS, par_append]
      tauto
  refine ⟨?_, ?_, ?_⟩
  · intro l1 c u1 hcol
    rcases split_append hcol with ⟨r', hcol, -⟩ | ⟨l', rfl, hU⟩
    · rcases split_append hcol with ⟨r', hL, -⟩ | ⟨l', rfl, hS'⟩
      · exact h.wnd l1 c (r' ++ e ++ u) (by rw [hL]; simp)
      · exact H.start_wind hs hS'
    · rw [h.wnd (l ++ e ++ l') c u1 (by rw [hU]; simp)]
      rw [Nat.even_iff] at hev
      simp only [List.length_append, Nat.odd_iff]
      omega
  · intro l1 c u1 hcol k hk
    rcases split_append hcol with ⟨r', hcol, -⟩ | ⟨l', rfl, hU⟩
    · rcases split_append hcol with ⟨r', hL, -⟩ | ⟨l', rfl, hS'⟩
      · exact h.pre l1 c (r' ++ e ++ u) (by rw [hL]; simp) k hk
      · exact H.start_side hs hS' k
    · rw [← h.pre (l ++ e ++ l') c u1 (by rw [hU]; simp) k hk]
      rw [par_append, par_append, par_append, par_append, H.parR hs k]
  · intro c hc d hd hcd v hv hcv hdv k hk
    have old : v ≤ pos ∨ v = pt := by
      have key : ∀ c ∈ input, (geom c).first = v ∨ (geom c).second = v → v ≤ pos ∨ v = pt := by
        intro c hc hcv
        rcases hcv with q | q
        · rcases hs.first c hc with a | a
          · exact .inl (q ▸ a)
          · exact .inr (le_antisymm hv (q ▸ a))
        · rcases hs.second c hc with a | a
          · exact .inl (q ▸ a)
          · exact .inr (le_antisymm hv (q ▸ a))
      exact key c hc hcv
    rcases old with hv' | rfl
    · exact h.done c hc d hd hcd v hv' hcv hdv k hk
    have mem : ∀ c ∈ input, (geom c).first = v ∨ (geom c).second = v → c ∈ e ++ s := by
      intro c hc hcv
      rcases hcv with q | q
      · exact List.mem_append_right _ ((hs.starts c).2 ⟨hc, q⟩)
      · exact List.mem_append_left _ ((hs.ends c).2 ⟨hc, q⟩)
    have mc := mem c hc hcv
    have md := mem d hd hdv
    by_cases hx : ∃ x ∈ e ++ s, ringOf x = k
    · rcases List.mem_append.1 mc with ce | cs <;> rcases List.mem_append.1 md with de | ds
      · obtain ⟨e1, e2, hE⟩ := List.append_of_mem ce
        rw [hE, List.mem_append, List.mem_cons] at de
        rcases de with de | rfl | de
        · obtain ⟨a, b, rfl⟩ := List.append_of_mem de
          exact (blockE a b e2 d c (by rw [hE]; simp) hcd.symm k (by rw [← hcd]; exact hk) hx).symm
        · rfl
        · obtain ⟨a, b, rfl⟩ := List.append_of_mem de
          exact blockE e1 a b c d hE hcd k hk hx
      · exact pass c ce d ds hcd k hk hx
      · exact (pass d de c cs hcd.symm k (by rw [← hcd]; exact hk) hx).symm
      · obtain ⟨e1, e2, hE⟩ := List.append_of_mem cs
        rw [hE, List.mem_append, List.mem_cons] at ds
        rcases ds with de | rfl | de
        · obtain ⟨a, b, rfl⟩ := List.append_of_mem de
          exact (blockS a b e2 d c (by rw [hE]; simp) hcd.symm k (by rw [← hcd]; exact hk) hx).symm
        · rfl
        · obtain ⟨a, b, rfl⟩ := List.append_of_mem de
          exact blockS e1 a b c d hE hcd k hk hx
    · push Not at hx
      rw [away c mc k hx, away d md k hx]

/-- So the edges of a ring are all inside of another ring, or all outside. -/
theorem NestOk.side (H : NestOk geom input ringOf isHole n W) (hd : ∀ c ∈ input, ∀ d ∈ input, ringOf c = ringOf d →
      ∀ v, (geom c).first = v ∨ (geom c).second = v → (geom d).first = v ∨ (geom d).second = v →
      ∀ k, k ≠ ringOf c → (Side geom input ringOf c k ↔ Side geom input ringOf d k)) :
    ∀ c ∈ input, ∀ k, k ≠ ringOf c → (Side geom input ringOf c k ↔ RingIn geom input ringOf (ringOf c) k) := by
  intro c hc k hk
  constructor
  · intro h; exact ⟨hk, c, hc, rfl, h⟩
  · rintro ⟨-, d, hdi, hdr, h⟩
    have key : ∀ c' ∈ input, ringOf c' = ringOf c → ∀ v, (geom c').first = v ∨ (geom c').second = v →
        ((∃ d ∈ input, ringOf d = ringOf c ∧ ((geom d).first = v ∨ (geom d).second = v) ∧ Side geom input ringOf d k) ↔ Side geom input ringOf c' k) := by
      intro c' hc' hr v hv
      constructor
      · rintro ⟨d, q1, q2, q3, q4⟩
        exact (hd d q1 c' hc' (q2.trans hr.symm) v q3 hv k (by rw [q2]; exact hk)).1 q4
      · intro q; exact ⟨c', hc', hr, hv, q⟩
    have := H.conn (fun v => ∃ d ∈ input, ringOf d = ringOf c ∧ ((geom d).first = v ∨ (geom d).second = v) ∧ Side geom input ringOf d k) (ringOf c)
      (fun c' hc' hr => by
        show (∃ d ∈ input, _) ↔ (∃ d ∈ input, _)
        rw [key c' hc' hr _ (.inl rfl), key c' hc' hr _ (.inr rfl)]) d hdi c hc hdr rfl
    exact (key c hc rfl _ (.inl rfl)).1 (this.1 ((key d hdi hdr _ (.inl rfl)).2 h))

end

/-! ## The lowest edge of a ring -/

variable {W : Nat → Bool}

section
variable (H : NestOk geom input ringOf isHole n W)
  (hside : ∀ c ∈ input, ∀ k, k ≠ ringOf c → (Side geom input ringOf c k ↔ RingIn geom input ringOf (ringOf c) k))
include H hside

omit hside in
/-- No edge of its ring is below the lowest one. -/
theorem low_self {c : Nat} (hlow : Low geom input ringOf c) {f : Nat} (hf : f ∈ input) (hr : ringOf f = ringOf c) : ¬ BelowStart geom c f := by
  rintro (k | ⟨k1, k2⟩)
  · rw [under_iff' (H.lt f hf)] at k
    have hle : (geom c).first ≤ (geom f).first := by
      rcases hlow f hf hr with rfl | q | q
      · exact le_refl _
      · exact q.le
      · exact q.1.ge
    rw [le_antisymm k.1 hle, det_left] at k
    exact lt_irrefl _ k.2.2
  · rcases hlow f hf hr with rfl | q | q
    · have : det (geom f).first (geom f).second (geom f).second = 0 := by unfold det; ring
      linarith
    · rw [k1] at q; exact lt_irrefl _ q
    · rw [det_neg'] at k2; linarith

/-- The rings around a ring, at its lowest edge. -/
theorem low_side {c : Nat} (hc : c ∈ input) (hlow : Low geom input ringOf c) (k : Nat) :
    Side geom input ringOf c k ↔ RingIn geom input ringOf (ringOf c) k := by
  by_cases hk : k = ringOf c
  · refine iff_of_false ?_ (fun h => h.1 hk)
    intro h
    obtain ⟨f, hf, hfu⟩ := List.countP_pos_iff.1 h.pos
    obtain ⟨h1, h2⟩ := of_decide_eq_true hfu
    exact low_self H hlow hf (h1.trans hk) h2
  · exact hside c hc k hk

/-- Rings are not inside of each other. -/
theorem ringIn_lt {c d : Nat} (hc : c ∈ input) (hcl : Low geom input ringOf c) (hd : d ∈ input) (hdl : Low geom input ringOf d)
    (h : RingIn geom input ringOf (ringOf c) (ringOf d)) :
    (geom d).first < (geom c).first ∨ (geom d).first = (geom c).first ∧ 0 < det (geom c).first (geom d).second (geom c).second := by
  rw [← low_side H hside hc hcl] at h
  obtain ⟨f, hf, hfu⟩ := List.countP_pos_iff.1 h.pos
  obtain ⟨h1, h2⟩ := of_decide_eq_true hfu
  have hle : (geom d).first ≤ (geom f).first := by
    rcases hdl f hf h1 with rfl | q | q
    · exact le_refl _
    · exact q.le
    · exact q.1.ge
  rcases h2 with k | ⟨k1, k2⟩
  · rw [under_iff' (H.lt f hf)] at k
    refine .inl (hle.trans_lt (lt_of_le_of_ne k.1 ?_))
    intro q
    rw [q, det_left] at k
    exact lt_irrefl _ k.2.2
  · rcases hdl f hf h1 with rfl | q | ⟨q1, q2⟩
    · exact .inr ⟨k1, k2⟩
    · rw [k1] at q; exact .inl q
    · have e1 := q1.symm.trans k1
      refine .inr ⟨e1, ?_⟩
      by_contra hno
      rw [e1] at q2
      have := angle (e1 ▸ H.lt d hd) (k1 ▸ H.lt f hf) (H.lt c hc) q2 (not_lt.1 hno)
      linarith

theorem ringIn_mem {r k : Nat} (h : RingIn geom input ringOf r k) : (∃ c ∈ input, ringOf c = r) ∧ ∃ d ∈ input, ringOf d = k := by
  obtain ⟨-, c, hc, hr, h⟩ := h
  obtain ⟨f, hf, hfu⟩ := List.countP_pos_iff.1 h.pos
  exact ⟨⟨c, hc, hr⟩, f, hf, (of_decide_eq_true hfu).1⟩

theorem ringIn_asymm {r k : Nat} (h : RingIn geom input ringOf r k) : ¬ RingIn geom input ringOf k r := by
  intro h'
  obtain ⟨⟨c, hc, rfl⟩, d, hd, rfl⟩ := ringIn_mem H hside h
  obtain ⟨c0, hc0, e1, m1, -⟩ := H.low c hc
  obtain ⟨d0, hd0, e2, m2, -⟩ := H.low d hd
  rw [← e1, ← e2] at h h'
  rcases ringIn_lt H hside hc0 m1 hd0 m2 h with k | ⟨k1, k2⟩ <;> rcases ringIn_lt H hside hd0 m2 hc0 m1 h' with q | ⟨q1, q2⟩
  · exact _root_.lt_asymm k q
  · rw [q1] at k; exact lt_irrefl _ k
  · rw [k1] at q; exact lt_irrefl _ q
  · rw [k1, det_neg'] at q2
    linarith

/-- The rings around two points, if equal, are innermost at the same ring. -/
theorem inner_unique {x y : Nat} (h : ∀ k, (k = x ∨ RingIn geom input ringOf x k) ↔ (k = y ∨ RingIn geom input ringOf y k)) : x = y := by
  by_contra hne
  have h1 : RingIn geom input ringOf y x := ((h x).1 (.inl rfl)).resolve_left hne
  have h2 : RingIn geom input ringOf x y := ((h y).2 (.inl rfl)).resolve_left (Ne.symm hne)
  exact ringIn_asymm H hside h1 h2

/-- The parity of edges that are around ring `r`, with possibly some of its own. -/
theorem odd_length {c : Nat} (hc : c ∈ input) {m : List Nat} (hm : ∀ d ∈ m, d ∈ input)
    (hk : ∀ k, k ≠ ringOf c → (Par ringOf k m ↔ RingIn geom input ringOf (ringOf c) k)) :
    Odd m.length ↔ (Par ringOf (ringOf c) m ↔ isHole (ringOf c) = false) := by
  obtain ⟨c0, hc0, e0, hlow, hh⟩ := H.low c hc
  rw [e0] at hh
  rw [← e0] at hk ⊢
  have hB : ∀ k, Par ringOf k (input.filter fun d => decide (BelowStart geom c0 d)) ↔ RingIn geom input ringOf (ringOf c0) k := by
    intro k
    rw [← low_side H hside hc0 hlow]
    unfold Par Side
    rw [List.countP_filter]
    simp only [← Bool.decide_and]
  have key := par_rest (ringOf := ringOf) (r := ringOf c0) (n := n) (A := m) (B := input.filter fun d => decide (BelowStart geom c0 d))
    (fun c hc => H.bound c (hm c hc)) (fun c hc => H.bound c (List.mem_of_mem_filter hc)) (fun k hkr => by rw [hk k hkr, hB k])
  have hB0 : ¬ Par ringOf (ringOf c0) (input.filter fun d => decide (BelowStart geom c0 d)) := by
    rw [hB]; exact fun h => h.1 rfl
  have lB := length_split (ringOf := ringOf) (ringOf c0) (input.filter fun d => decide (BelowStart geom c0 d))
  rw [← List.countP_eq_length_filter] at lB
  rw [lB, Nat.odd_add] at hh
  rw [length_split (ringOf := ringOf) (ringOf c0) m, Nat.odd_add, ← Nat.not_odd_iff_even, key]
  unfold Par at hB0 ⊢
  rw [← Nat.not_odd_iff_even] at hh
  rw [e0] at hh hB0 ⊢
  cases hih : isHole (ringOf c) <;> simp only [hih] at hh ⊢ <;> simp only [Bool.false_eq_true, true_iff, false_iff, iff_false, iff_true, reduceCtorEq] at * <;> tauto

end


/-! ## The run of `assemble` -/

/-- The ring `x` is the innermost of the rings around. -/
def Inner (geom : Nat → LineOrPoint K) (input : List Nat) (ringOf : Nat → Nat) (A : Nat → Prop) (x : Nat) : Prop :=
  ∀ k, A k ↔ k = x ∨ RingIn geom input ringOf x k

/-- The parent of the hole `r` is the exterior ring just around it. -/
def ParOk (geom : Nat → LineOrPoint K) (input : List Nat) (ringOf : Nat → Nat) (isHole : Nat → Bool) (n : Nat) (par : Nat → Nat) (r : Nat) : Prop :=
  Ext isHole n (par r) ∧ Inner geom input ringOf (RingIn geom input ringOf r) (par r)

/-- What a cell says about the edges up to it. -/
def CellOk (geom : Nat → LineOrPoint K) (input : List Nat) (ringOf : Nat → Nat) (isHole : Nat → Bool) (n : Nat) (m : List Nat) (b : Option Nat) : Prop :=
  (b.isSome = true ↔ Odd m.length) ∧ ∀ x, b = some x → Ext isHole n x ∧ Inner geom input ringOf (fun k => Par ringOf k m) x

theorem visit_nest (H : NestOk geom input ringOf isHole n W)
    (hside : ∀ c ∈ input, ∀ k, k ≠ ringOf c → (Side geom input ringOf c k ↔ RingIn geom input ringOf (ringOf c) k)) :
    ∀ (s m : List Nat) (b : Option Nat) (par : Nat → Nat) (reg : Nat → Option Nat), s.Nodup →
    (∀ c ∈ m ++ s, c ∈ input) →
    (∀ l c u, s = l ++ c :: u → ∀ k, k ≠ ringOf c → (Par ringOf k (m ++ l) ↔ RingIn geom input ringOf (ringOf c) k)) →
    CellOk geom input ringOf isHole n m b →
    (∀ l c u, s = l ++ c :: u → isHole (ringOf c) = true →
      ParOk geom input ringOf isHole n par (ringOf c) ∨ (∃ d ∈ l, ringOf d = ringOf c) ∨ Odd (m ++ l).length) →
    (∀ c, c ∉ s → (s.foldl (Laminar.visit isHole ringOf) (b, par, reg)).2.2 c = reg c) ∧
    (∀ l c u, s = l ++ c :: u → CellOk geom input ringOf isHole n (m ++ l ++ [c]) ((s.foldl (Laminar.visit isHole ringOf) (b, par, reg)).2.2 c)) ∧
    (∀ k, (∀ c ∈ s, ringOf c ≠ k) → (s.foldl (Laminar.visit isHole ringOf) (b, par, reg)).2.1 k = par k) ∧
    (∀ k, isHole k = true → (∃ c ∈ s, ringOf c = k) ∨ ParOk geom input ringOf isHole n par k →
      ParOk geom input ringOf isHole n (s.foldl (Laminar.visit isHole ringOf) (b, par, reg)).2.1 k) ∧
    (∀ l c u, s = l ++ c :: u → Laminar.Match isHole (ringOf c) (l.foldl (Laminar.visit isHole ringOf) (b, par, reg)).1) := by
  intro s
  induction s with
  | nil =>
    intro m b par reg _ _ _ _ _
    exact ⟨fun _ _ => rfl, by simp, fun _ _ => rfl, fun _ _ h => h.resolve_left (by simp), by simp⟩
  | cons c s ih =>
    intro m b par reg hn hm hk0 hb hp0
    rw [List.nodup_cons] at hn
    rw [List.foldl_cons]
    obtain ⟨r, hcr⟩ : ∃ r, ringOf c = r := ⟨_, rfl⟩
    have hk : ∀ k, k ≠ r → (Par ringOf k m ↔ RingIn geom input ringOf r k) := by
      have := hk0 [] c s rfl
      rwa [hcr, List.append_nil] at this
    have hp : isHole r = true → ParOk geom input ringOf isHole n par r ∨ b.isSome = true := by
      intro hh
      have := hp0 [] c s rfl (by rw [hcr]; exact hh)
      rw [hcr, List.append_nil] at this
      rcases this with q | ⟨d, hd, -⟩ | q
      · exact .inl q
      · simp at hd
      · exact .inr (hb.1.2 q)
    have hci : c ∈ input := hm c (by simp)
    have o1 := odd_length H hside hci (m := m) (fun d hd => hm d (by simp [hd])) (by rw [hcr]; exact hk)
    have hk' : ∀ k, k ≠ r → (Par ringOf k (m ++ [c]) ↔ RingIn geom input ringOf r k) := by
      intro k hkr
      rw [par_snoc (by rw [hcr]; exact hkr), hk k hkr]
    have o2 := odd_length H hside hci (m := m ++ [c]) (fun d hd => hm d (by
      simp only [List.mem_append, List.mem_cons] at hd ⊢; tauto)) (by rw [hcr]; exact hk')
    rw [hcr] at o1 o2
    have hrr : ¬ RingIn geom input ringOf r r := fun h => h.1 rfl
    -- the rings around the edges so far, by parity
    have all : ∀ m', (∀ k, k ≠ r → (Par ringOf k m' ↔ RingIn geom input ringOf r k)) → (Odd m'.length ↔ (Par ringOf r m' ↔ isHole r = false)) →
        Odd m'.length → if isHole r then ∀ k, Par ringOf k m' ↔ RingIn geom input ringOf r k else Inner geom input ringOf (fun k => Par ringOf k m') r := by
      intro m' q1 q2 q3
      have q4 := q2.1 q3
      cases hh : isHole r with
      | true =>
        rw [if_pos rfl]
        intro k
        by_cases hkr : k = r
        · subst hkr
          rw [hh] at q4
          exact iff_of_false (fun h => by simpa using q4.1 h) hrr
        · exact q1 k hkr
      | false =>
        rw [if_neg (by simp)]
        intro k
        by_cases hkr : k = r
        · subst hkr
          exact iff_of_true (q4.2 hh) (.inl rfl)
        · exact (q1 k hkr).trans (or_iff_right hkr).symm
    have hcell : CellOk geom input ringOf isHole n (m ++ [c]) (Laminar.visit isHole ringOf (b, par, reg) c).1 := by
      refine ⟨?_, ?_⟩
      · rw [visit_isSome, List.length_append, List.length_singleton, Nat.odd_add_one, ← hb.1]
        simp
      · intro x hx
        have hodd : Odd (m ++ [c]).length := by
          have := visit_isSome (isHole := isHole) (ringOf := ringOf) b par reg c
          rw [hx] at this
          rw [List.length_append, List.length_singleton, Nat.odd_add_one, ← hb.1]
          simpa using this.symm
        have ha := all _ hk' o2 hodd
        cases b with
        | some y => cases hx
        | none =>
          have hx : some (if isHole (ringOf c) then par (ringOf c) else ringOf c) = some x := hx
          rw [Option.some.injEq, hcr] at hx
          cases hh : isHole r with
          | true =>
            rw [hh, if_pos rfl] at hx ha
            subst hx
            obtain ⟨p1, p2⟩ := (hp hh).resolve_right (by simp)
            exact ⟨p1, fun k => (ha k).trans (p2 k)⟩
          | false =>
            rw [hh, if_neg (by simp)] at hx ha
            subst hx
            exact ⟨⟨hh, hcr ▸ H.bound c hci⟩, ha⟩
    have hmatch : Laminar.Match isHole r b := by
      intro y hy hh
      have hodd := hb.1.1 (by rw [hy]; rfl)
      have ha := all _ hk o1 hodd
      rw [hh, if_neg (by simp)] at ha
      exact inner_unique H hside fun k => (ha k).symm.trans ((hb.2 y hy).2 k)
    have hpar : isHole r = true → ParOk geom input ringOf isHole n (Laminar.visit isHole ringOf (b, par, reg) c).2.1 r := by
      intro hh
      cases b with
      | none => exact (hp hh).resolve_right (by simp)
      | some y =>
        have e : (Laminar.visit isHole ringOf (some y, par, reg) c).2.1 =
          if isHole (ringOf c) then fun j => if j = ringOf c then y else par j else par := rfl
        rw [e, hcr, hh, if_pos rfl]
        obtain ⟨p1, p2⟩ := hb.2 y rfl
        have ha := all _ hk o1 (hb.1.1 rfl)
        rw [hh, if_pos rfl] at ha
        refine ⟨by simpa using p1, ?_⟩
        simp only [if_true]
        exact fun k => (ha k).symm.trans (p2 k)
    have hother : ∀ k, k ≠ r → (Laminar.visit isHole ringOf (b, par, reg) c).2.1 k = par k := by
      intro k hkr
      cases b with
      | none => rfl
      | some y =>
        have e : (Laminar.visit isHole ringOf (some y, par, reg) c).2.1 =
          if isHole (ringOf c) then fun j => if j = ringOf c then y else par j else par := rfl
        rw [e, hcr]
        by_cases hh : isHole r = true
        · rw [if_pos hh]; simp only [if_neg hkr]
        · rw [if_neg hh]
    have hpo : ∀ k, isHole k = true → k = r ∨ ParOk geom input ringOf isHole n par k →
        ParOk geom input ringOf isHole n (Laminar.visit isHole ringOf (b, par, reg) c).2.1 k := by
      intro k hh q
      by_cases hkr : k = r
      · subst hkr; exact hpar hh
      · have := q.resolve_left hkr
        unfold ParOk at this ⊢
        rw [hother k hkr]; exact this
    obtain ⟨j1, j2, j3, j4, j5⟩ := ih (m ++ [c]) (Laminar.visit isHole ringOf (b, par, reg) c).1 (Laminar.visit isHole ringOf (b, par, reg) c).2.1
      (Laminar.visit isHole ringOf (b, par, reg) c).2.2 hn.2 (by simpa using hm)
      (fun l d u hs k hkd => by
        have := hk0 (c :: l) d u (by rw [hs]; rfl) k hkd
        rw [← this]; simp) hcell (fun l d u hs hh => by
        rcases hp0 (c :: l) d u (by rw [hs]; rfl) hh with q | ⟨x, hx, q⟩ | q
        · exact .inl (hpo _ hh (.inr q))
        · rcases List.mem_cons.1 hx with rfl | hx
          · exact .inl (hpo _ hh (.inl (q.symm.trans hcr)))
          · exact .inr (.inl ⟨x, hx, q⟩)
        · exact .inr (.inr (by simpa using q)))
    refine ⟨?_, ?_, ?_, ?_, ?_⟩
    · intro d hd
      rw [List.mem_cons, not_or] at hd
      rw [j1 d hd.2, visit_reg]
      simp only [if_neg hd.1]
    · intro l d u hs
      cases l with
      | nil =>
        rw [List.nil_append, List.cons.injEq] at hs
        obtain ⟨rfl, rfl⟩ := hs
        rw [List.append_nil, j1 c hn.1, visit_reg]
        simp only [if_true]
        exact hcell
      | cons a l =>
        rw [List.cons_append, List.cons.injEq] at hs
        obtain ⟨rfl, hs⟩ := hs
        have := j2 l d u hs
        simpa using this
    · intro k hkr
      rw [j3 k fun d hd => hkr d (by simp [hd])]
      exact hother k fun q => hkr c (by simp) (hcr.trans q.symm)
    · intro k hh q
      refine j4 k hh ?_
      rcases q with ⟨d, hd, q⟩ | q
      · rcases List.mem_cons.1 hd with rfl | hd
        · exact .inr (hpo _ hh (.inl (q.symm.trans hcr)))
        · exact .inl ⟨d, hd, q⟩
      · exact .inr (hpo _ hh (.inr q))
    · intro l d u hs
      cases l with
      | nil =>
        rw [List.nil_append, List.cons.injEq] at hs
        obtain ⟨rfl, -⟩ := hs
        rw [hcr]; exact hmatch
      | cons a l =>
        rw [List.cons_append, List.cons.injEq] at hs
        obtain ⟨rfl, hs⟩ := hs
        rw [List.foldl_cons]
        exact j5 l d u hs

/-- There is an innermost ring around, or none. -/
def Around (geom : Nat → LineOrPoint K) (input : List Nat) (ringOf : Nat → Nat) (A : Nat → Prop) : Prop :=
  (∀ k, ¬ A k) ∨ ∃ d ∈ input, Inner geom input ringOf A (ringOf d)

theorem Around.congr {A B : Nat → Prop} (h : Around geom input ringOf A) (hAB : ∀ k, A k ↔ B k) : Around geom input ringOf B := by
  rcases h with q | ⟨d, hd, q⟩
  · exact .inl fun k hk => q k ((hAB k).2 hk)
  · exact .inr ⟨d, hd, fun k => (hAB k).symm.trans (q k)⟩

theorem Around.snoc {m : List Nat} {c : Nat} (hc : c ∈ input) (hk : ∀ k, k ≠ ringOf c → (Par ringOf k m ↔ RingIn geom input ringOf (ringOf c) k))
    (hn : Around geom input ringOf (RingIn geom input ringOf (ringOf c))) : Around geom input ringOf fun k => Par ringOf k (m ++ [c]) := by
  have hk : ∀ k, k ≠ ringOf c → (Par ringOf k (m ++ [c]) ↔ RingIn geom input ringOf (ringOf c) k) := by
    intro k hkr
    rw [par_snoc hkr, hk k hkr]
  by_cases hr : Par ringOf (ringOf c) (m ++ [c])
  · refine .inr ⟨c, hc, fun k => ?_⟩
    by_cases hkr : k = ringOf c
    · subst hkr; exact iff_of_true hr (.inl rfl)
    · exact (hk k hkr).trans (or_iff_right hkr).symm
  · refine hn.congr fun k => ?_
    by_cases hkr : k = ringOf c
    · subst hkr; exact iff_of_false (fun h => h.1 rfl) hr
    · exact (hk k hkr).symm

/-- The invariant of the run. -/
structure NInv (geom : Nat → LineOrPoint K) (input : List Nat) (ringOf : Nat → Nat) (isHole : Nat → Bool) (n : Nat)
    (pos : Pt K) (col : List Nat) (par : Nat → Nat) (reg : Nat → Option Nat) : Prop where
  pre : ∀ l c u, col = l ++ c :: u → ∀ k, k ≠ ringOf c → (Par ringOf k l ↔ RingIn geom input ringOf (ringOf c) k)
  started : ∀ c ∈ col, c ∈ input ∧ (geom c).first ≤ pos
  cel : ∀ l c u, col = l ++ c :: u → CellOk geom input ringOf isHole n (l ++ [c]) (reg c)
  hol : ∀ c ∈ input, (geom c).first ≤ pos → isHole (ringOf c) = true → ParOk geom input ringOf isHole n par (ringOf c)
  nest : ∀ c ∈ input, (geom c).first ≤ pos → Around geom input ringOf (RingIn geom input ringOf (ringOf c))
  pts : ∀ q : Pt K, q.x < pos.x → Around geom input ringOf fun k => InRing geom input ringOf k q

theorem NInv.below {col : List Nat} {par : Nat → Nat} {reg : Nat → Option Nat} (h : NInv geom input ringOf isHole n pos col par reg)
    {l r : List Nat} (hc : col = l ++ r) : CellOk geom input ringOf isHole n l (l.getLast?.bind reg) := by
  rcases List.eq_nil_or_concat l with hl | ⟨l', c, hl⟩
  · subst hl; exact ⟨by simp, by simp⟩
  · rw [List.concat_eq_append] at hl
    subst hl
    have e : (l' ++ [c]).getLast?.bind reg = reg c := by simp
    rw [e]
    exact h.cel l' c r (by rw [hc]; simp)

/-- The rings around a place in the column. -/
theorem NInv.around {col : List Nat} {par : Nat → Nat} {reg : Nat → Option Nat} (h : NInv geom input ringOf isHole n pos col par reg)
    {l r : List Nat} (hc : col = l ++ r) : Around geom input ringOf fun k => Par ringOf k l := by
  rcases List.eq_nil_or_concat l with hl | ⟨l', c, hl⟩
  · subst hl; exact .inl fun _ => par_nil
  · rw [List.concat_eq_append] at hl
    subst hl
    have hcol : col = l' ++ c :: r := by rw [hc]; simp
    obtain ⟨hci, hcp⟩ := h.started c (by rw [hcol]; simp)
    exact .snoc hci (h.pre l' c r hcol) (h.nest c hci hcp)

/-- The visits of the starting edges. -/
theorem NInv.visits (H : NestOk geom input ringOf isHole n W)
    (hside : ∀ c ∈ input, ∀ k, k ≠ ringOf c → (Side geom input ringOf c k ↔ RingIn geom input ringOf (ringOf c) k))
    {par : Nat → Nat} {reg : Nat → Option Nat} (hs : ColStep geom input pos pt l e s u)
    (h : NInv geom input ringOf isHole n pos (l ++ e ++ u) par reg) :
    (∀ c, c ∉ s → (s.foldl (Laminar.visit isHole ringOf) (l.getLast?.bind reg, par, reg)).2.2 c = reg c) ∧
      (∀ l1 c u1, s = l1 ++ c :: u1 → CellOk geom input ringOf isHole n (l ++ l1 ++ [c]) ((s.foldl (Laminar.visit isHole ringOf) (l.getLast?.bind reg, par, reg)).2.2 c)) ∧
      (∀ k, (∀ c ∈ s, ringOf c ≠ k) → (s.foldl (Laminar.visit isHole ringOf) (l.getLast?.bind reg, par, reg)).2.1 k = par k) ∧
      (∀ c ∈ s, isHole (ringOf c) = true → ParOk geom input ringOf isHole n (s.foldl (Laminar.visit isHole ringOf) (l.getLast?.bind reg, par, reg)).2.1 (ringOf c)) ∧
      (∀ l1 c u1, s = l1 ++ c :: u1 → Laminar.Match isHole (ringOf c) (l1.foldl (Laminar.visit isHole ringOf) (l.getLast?.bind reg, par, reg)).1) := by
  obtain ⟨n1, n2, n3, n4, n5, n6⟩ := hs.nodup3
  have hin : ∀ c ∈ l ++ s ++ u, c ∈ input := fun c hc => hs.memInput hc
  have hb := h.below (l := l) (r := e ++ u) (by simp)
  obtain ⟨j1, j2, j3, j4, j5⟩ := visit_nest H hside s l (l.getLast?.bind reg) par reg n3 (fun d hd => hin d (by
    simp only [List.mem_append] at hd ⊢; tauto)) (fun l1 c u1 hS k hk => by
      rw [H.start_side hs hS, hside c ((hs.starts c).1 (by rw [hS]; simp)).1 k hk]) hb (fun l1 c u1 hS hh => by
      have hcs : c ∈ s := by rw [hS]; simp
      by_cases hT : ∃ d ∈ input, ringOf d = ringOf c ∧ (geom d).first ≤ pos
      · obtain ⟨d, hd, hdr, hdp⟩ := hT
        rw [← hdr] at hh ⊢
        exact .inl (h.hol d hd hdp hh)
      · by_cases hT1 : ∃ d ∈ l1, ringOf d = ringOf c
        · exact .inr (.inl hT1)
        push Not at hT hT1
        exact .inr (.inr ((hs.first_low H.toRingEdgesOk hS (fun d hd hr => not_le.2 (hT d hd hr)) hT1).2.1 hh)))
  exact ⟨j1, j2, j3, fun d hd hh => j4 _ hh (.inl ⟨d, hd, rfl⟩), j5⟩

theorem NInv.step (H : NestOk geom input ringOf isHole n W)
    (hside : ∀ c ∈ input, ∀ k, k ≠ ringOf c → (Side geom input ringOf c k ↔ RingIn geom input ringOf (ringOf c) k))
    {par : Nat → Nat} {reg : Nat → Option Nat} (hs : ColStep geom input pos pt l e s u)
    (h : NInv geom input ringOf isHole n pos (l ++ e ++ u) par reg) :
    NInv geom input ringOf isHole n pt (l ++ s ++ u) (s.foldl (Laminar.visit isHole ringOf) (l.getLast?.bind reg, par, reg)).2.1
      (s.foldl (Laminar.visit isHole ringOf) (l.getLast?.bind reg, par, reg)).2.2 := by
  obtain ⟨n1, n2, n3, n4, n5, n6⟩ := hs.nodup3
  have hev : Even (e.length + s.length) := hs.parity H.he.nodup (by simpa using H.he.even true pt)
  have hpar : ∀ k v, Par ringOf k (l ++ s ++ v) ↔ Par ringOf k (l ++ e ++ v) := by
    intro k v
    rw [par_append, par_append, par_append, par_append, H.parR hs k]
  have hstart : ∀ c ∈ input, (geom c).first ≤ pt → (geom c).first ≤ pos ∨ c ∈ s := by
    intro c hc hle
    rcases hs.first c hc with k | k
    · exact .inl k
    · exact .inr ((hs.starts c).2 ⟨hc, le_antisymm hle k⟩)
  have hin : ∀ c ∈ l ++ s ++ u, c ∈ input := fun c hc => hs.memInput hc
  -- the rings around the places among the edges that start
  have hnest : ∀ l1 u1, s = l1 ++ u1 → (Around geom input ringOf fun k => Par ringOf k (l ++ l1)) ∧
      ∀ c ∈ l1, Around geom input ringOf (RingIn geom input ringOf (ringOf c)) := by
    intro l1
    induction l1 using List.reverseRecOn with
    | nil => intro u1 _; exact ⟨by simpa using h.around (l := l) (r := e ++ u) (by simp), by simp⟩
    | append_singleton l1 c ih =>
      intro u1 hS
      have hS : s = l1 ++ c :: u1 := by rw [hS]; simp
      obtain ⟨i1, i2⟩ := ih _ hS
      have hci := ((hs.starts c).1 (by rw [hS]; simp)).1
      have hn : Around geom input ringOf (RingIn geom input ringOf (ringOf c)) := by
        by_cases hT : ∃ d ∈ input, ringOf d = ringOf c ∧ (geom d).first ≤ pos
        · obtain ⟨d, hd, hdr, hdp⟩ := hT
          rw [← hdr]; exact h.nest d hd hdp
        by_cases hT1 : ∃ d ∈ l1, ringOf d = ringOf c
        · obtain ⟨d, hd, hdr⟩ := hT1
          rw [← hdr]; exact i2 d hd
        push Not at hT hT1
        have hlow := (hs.first_low H.toRingEdgesOk hS (fun d hd hr => not_le.2 (hT d hd hr)) hT1).1
        exact i1.congr fun k => by rw [H.start_side hs hS, low_side H hside hci hlow]
      refine ⟨?_, ?_⟩
      · rw [← List.append_assoc]
        exact .snoc hci (fun k hk => by rw [H.start_side hs hS, hside c hci k hk]) hn
      · intro d hd
        rcases List.mem_append.1 hd with hd | hd
        · exact i2 d hd
        · rw [List.mem_singleton.1 hd]; exact hn
  have hb := h.below (l := l) (r := e ++ u) (by simp)
  obtain ⟨j1, j2, j3, j4, -⟩ := h.visits H hside hs
  refine ⟨?_, ?_, ?_, ?_, ?_, ?_⟩
  · intro l1 c u1 hcol k hk
    rcases split_append hcol with ⟨r', hcol, -⟩ | ⟨l', rfl, hU⟩
    · rcases split_append hcol with ⟨r', hL, -⟩ | ⟨l', rfl, hS'⟩
      · exact h.pre l1 c (r' ++ e ++ u) (by rw [hL]; simp) k hk
      · rw [H.start_side hs hS', hside c ((hs.starts c).1 (by rw [hS']; simp)).1 k hk]
    · rw [hpar, h.pre (l ++ e ++ l') c u1 (by rw [hU]; simp) k hk]
  · intro c hc
    refine ⟨hin c hc, ?_⟩
    by_cases hcs : c ∈ s
    · exact ((hs.starts c).1 hcs).2.le
    · exact (h.started c (by simp only [List.mem_append] at hc ⊢; tauto)).2.trans hs.lt.le
  · intro l1 c u1 hcol
    rcases split_append hcol with ⟨r', hcol, -⟩ | ⟨l', rfl, hU⟩
    · rcases split_append hcol with ⟨r', hL, -⟩ | ⟨l', rfl, hS'⟩
      · rw [j1 c (n5 c (by rw [hL]; simp))]
        exact h.cel l1 c (r' ++ e ++ u) (by rw [hL]; simp)
      · exact j2 l' c r' hS'
    · rw [j1 c (n6 c (by rw [hU]; simp))]
      obtain ⟨q1, q2⟩ := h.cel (l ++ e ++ l') c u1 (by rw [hU]; simp)
      refine ⟨?_, fun x hx => ⟨(q2 x hx).1, fun k => ?_⟩⟩
      · rw [q1]
        rw [Nat.even_iff] at hev
        simp only [List.length_append, Nat.odd_iff]
        omega
      · have := (q2 x hx).2 k
        simp only [List.append_assoc] at this ⊢
        rw [← this]
        have := hpar k (l' ++ [c])
        simpa using this
  · intro c hc hle hh
    by_cases hcs : ∃ d ∈ s, ringOf d = ringOf c
    · obtain ⟨d, hd, hdr⟩ := hcs
      rw [← hdr] at hh ⊢
      exact j4 d hd hh
    · push Not at hcs
      have := h.hol c hc ((hstart c hc hle).resolve_right fun q => hcs c q rfl) hh
      unfold ParOk at this ⊢
      rw [j3 _ hcs]
      exact this
  · intro c hc hle
    rcases hstart c hc hle with k | k
    · exact h.nest c hc k
    · exact (hnest s [] (by simp)).2 c k
  · intro q hq
    by_cases hq1 : q.x < pos.x
    · exact h.pts q hq1
    · obtain ⟨c1, c2, e1, e2⟩ := hs.mono q (not_lt.1 hq1) hq
      have hnd : c1.Nodup := by
        have := hs.nd
        rw [e1] at this
        exact (List.nodup_append'.1 this).1
      have hp := H.prefix_par hnd e2
      exact (h.around e1).congr hp

end GeoCrossings
