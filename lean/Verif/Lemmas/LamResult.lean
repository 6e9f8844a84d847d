import Verif.Lemmas.LamNest

/-! # The polygons of `assemble` and the even-odd rule -/
set_option linter.unusedSectionVars false
namespace GeoCrossings
open Spec

variable {K : Type} [Field K] [LinearOrder K] [IsStrictOrderedRing K]
variable {geom : Nat → LineOrPoint K} {input : List Nat} {isHole : Nat → Bool} {ringOf : Nat → Nat} {n : Nat} {W : Nat → Bool}

/-- What a run of the sweep of `assemble` finds. -/
structure Nested (geom : Nat → LineOrPoint K) (input : List Nat) (ringOf : Nat → Nat) (isHole : Nat → Bool) (n : Nat) (par : Nat → Nat) : Prop where
  side : ∀ c ∈ input, ∀ k, k ≠ ringOf c → (Side geom input ringOf c k ↔ RingIn geom input ringOf (ringOf c) k)
  hol : ∀ c ∈ input, isHole (ringOf c) = true → ParOk geom input ringOf isHole n par (ringOf c)
  nest : ∀ c ∈ input, (∀ k, ¬ RingIn geom input ringOf (ringOf c) k) ∨
    ∃ d ∈ input, Inner geom input ringOf (RingIn geom input ringOf (ringOf c)) (ringOf d)
  pts : ∀ q : Pt K, (∀ k, ¬ InRing geom input ringOf k q) ∨ ∃ d ∈ input, Inner geom input ringOf (fun k => InRing geom input ringOf k q) (ringOf d)
  vert : ∀ c ∈ input, ∀ v, (geom c).first = v ∨ (geom c).second = v →
    (∀ d ∈ input, ringOf d ≠ ringOf c → (geom d).first ≠ v ∧ (geom d).second ≠ v) →
    ∀ k, k ≠ ringOf c → (InRing geom input ringOf k v ↔ RingIn geom input ringOf (ringOf c) k)

/-- The rings around a vertex that is in one ring only. -/
def VertOk (geom : Nat → LineOrPoint K) (input : List Nat) (ringOf : Nat → Nat) (pos : Pt K) : Prop :=
  ∀ c ∈ input, (geom c).second ≤ pos → (∀ d ∈ input, ringOf d ≠ ringOf c → (geom d).second ≠ (geom c).second) →
    ∀ k, k ≠ ringOf c → (InRing geom input ringOf k (geom c).second ↔ Side geom input ringOf c k)

theorem VertOk.step (H : NestOk geom input ringOf isHole n W) {pos pt : Pt K} {l e s u : List Nat} (hs : ColStep geom input pos pt l e s u)
    (h : VertOk geom input ringOf pos) (hi : SideInv geom input ringOf W pos (l ++ e ++ u)) : VertOk geom input ringOf pt := by
  intro c hc hle hno k hk
  rcases hs.second c hc with h1 | h1
  · exact h c hc h1 hno k hk
  · have h2 : (geom c).second = pt := le_antisymm hle h1
    have hce := (hs.ends c).2 ⟨hc, h2⟩
    obtain ⟨e1, e2, he⟩ := List.append_of_mem hce
    rw [h2, ← H.low_par hs k, ← hi.pre (l ++ e1) c (e2 ++ u) (by rw [he]; simp) k hk, par_append]
    have : ¬ Par ringOf k e1 := by
      unfold Par
      rw [List.countP_eq_zero.2]
      · simp
      · intro d hd
        have hde := (hs.ends d).1 (by rw [he]; simp [hd])
        have : ringOf d = ringOf c := by
          by_contra hne
          exact hno d hde.1 hne (hde.2.trans h2.symm)
        rw [decide_eq_true_eq, this]; exact Ne.symm hk
    tauto

theorem nest_run (H : NestOk geom input ringOf isHole n W) (srt : List (Crossing K Nat) → List (Crossing K Nat)) (nextAfter : K → K) (choice : Nat → Nat) :
    ∃ it, CrossingsIter.ofInput (fun i => (geom i).toLine) input = some it ∧ ∃ N par', (∀ dbg fuel, N ≤ fuel →
        Laminar.sweepLoop dbg isHole ringOf (fun i => (geom i).toLine) nextAfter choice srt fuel fuel it (fun _ => 0) (fun _ => none) = some par') ∧
      Nested geom input ringOf isHole n par' := by
  obtain ⟨-, -, -, -, -, pos, -, k1, k2⟩ := lam_run (P := fun pos col _ _ => SideInv geom input ringOf W pos col ∧ VertOk geom input ringOf pos)
    H.he H.ha isHole ringOf srt nextAfter choice
    (fun pos hp => ⟨⟨by simp, by simp, fun c hc d hd _ v hv hcv _ => by
      have h1 := hp c hc
      rcases hcv with q | q
      · rw [q] at h1; exact absurd h1 (not_lt.2 hv)
      · have h2 := h1.trans (H.lt c hc)
        rw [q] at h2; exact absurd h2 (not_lt.2 hv)⟩, fun c hc hle => absurd ((hp c hc).trans (H.lt c hc)) (not_lt.2 hle)⟩)
    (fun _ _ _ _ _ _ _ _ hs h => ⟨h.1.step H hs, h.2.step H hs h.1⟩)
  have hside := H.side fun c hc d hd hr v hv hv' k hk => k2.1.done c hc d hd hr v (by
    rcases hv with q | q
    · rw [← q]; exact (H.lt c hc).le.trans (k1 c hc)
    · rw [← q]; exact k1 c hc) hv hv' k hk
  have none_under : ∀ q : Pt K, (∀ c ∈ input, ¬ Under q (geom c).first (geom c).second) → ∀ k, ¬ InRing geom input ringOf k q := by
    intro q hq k h
    obtain ⟨f, hf, hfu⟩ := List.countP_pos_iff.1 h.pos
    exact hq f hf (of_decide_eq_true hfu).2
  obtain ⟨it, i1, N, par', i2, pos, reg, j1, j2⟩ := lam_run (P := NInv geom input ringOf isHole n) H.he H.ha isHole ringOf srt nextAfter choice
    (fun pos hp => ⟨by simp, by simp, by simp, fun c hc hle => absurd (hp c hc) (not_lt.2 hle), fun c hc hle => absurd (hp c hc) (not_lt.2 hle),
      fun q hq => .inl (none_under q fun c hc hu => by
        have := Pt.x_le_of_le (hp c hc).le
        exact absurd (hu.1.trans_lt hq) (not_lt.2 this))⟩) (fun _ _ _ _ _ _ _ _ hs h => h.step H hside hs)
  refine ⟨it, i1, N, par', fun dbg => i2 dbg fun _ pos pt l e s u par reg hs h => (h.visits H hside hs).2.2.2.2, hside, fun c hc hh => j2.hol c hc ((H.lt c hc).le.trans (j1 c hc)) hh,
    fun c hc => j2.nest c hc ((H.lt c hc).le.trans (j1 c hc)), ?_, ?_⟩
  swap
  · intro c hc v hv hno k hk
    rw [← hside c hc k hk]
    rcases hv with rfl | rfl
    · unfold InRing Side
      refine Eq.to_iff (congrArg Odd (List.countP_congr fun d hd => ?_))
      rw [decide_eq_true_eq, decide_eq_true_eq]
      unfold BelowStart
      constructor
      · rintro ⟨h1, h2⟩; exact ⟨h1, .inl h2⟩
      · rintro ⟨h1, h2 | ⟨h2, -⟩⟩
        · exact ⟨h1, h2⟩
        · exact absurd h2 (hno d hd (by rw [h1]; exact hk)).1
    · exact k2.2 c hc (k1 c hc) (fun d hd hr => (hno d hd hr).2) k hk
  intro q
  by_cases hq : q.x < pos.x
  · exact j2.pts q hq
  · refine .inl (none_under q fun c hc hu => ?_)
    have := Pt.x_le_of_le (j1 c hc)
    exact absurd (hu.2.1.trans_le this) hq

section
variable {par : Nat → Nat} (H : NestOk geom input ringOf isHole n W) (N : Nested geom input ringOf isHole n par)
include H N

/-- The parity of the edges below a point and the kind of the innermost ring around it. -/
theorem Nested.parity {q : Pt K} {d : Nat} (hd : d ∈ input) (h : Inner geom input ringOf (fun k => InRing geom input ringOf k q) (ringOf d)) :
    Odd (input.countP fun c => decide (Under q (geom c).first (geom c).second)) ↔ isHole (ringOf d) = false := by
  have hp : ∀ k, Par ringOf k (input.filter fun c => decide (Under q (geom c).first (geom c).second)) ↔ InRing geom input ringOf k q :=
    H.prefix_par (H.he.nodup.filter _) fun c => by rw [List.mem_filter, decide_eq_true_eq]
  rw [List.countP_eq_length_filter, odd_length H N.side hd (fun d hd => List.mem_of_mem_filter hd) (fun k hk => by
    rw [hp k]; exact (h k).trans (or_iff_right hk)), hp]
  exact iff_true_left ((h _).2 (.inl rfl))

/-- The ring just around an exterior ring is a hole. -/
theorem Nested.ext {c d : Nat} (hc : c ∈ input) (hd : d ∈ input) (hx : isHole (ringOf c) = false)
    (h : Inner geom input ringOf (RingIn geom input ringOf (ringOf c)) (ringOf d)) : isHole (ringOf d) = true := by
  obtain ⟨c0, hc0, e0, hlow, hh⟩ := H.low c hc
  have hl := low_side H N.side hc0 hlow
  rw [e0] at hl
  rw [e0, hx] at hh
  have hp : ∀ k, Par ringOf k (input.filter fun d => decide (BelowStart geom c0 d)) ↔ (k = ringOf d ∨ RingIn geom input ringOf (ringOf d) k) := by
    intro k
    rw [← h k, ← hl k]
    unfold Par Side
    rw [List.countP_filter]
    simp only [← Bool.decide_and]
  rw [List.countP_eq_length_filter, odd_length H N.side hd (fun d hd => List.mem_of_mem_filter hd) (fun k hk => (hp k).trans (or_iff_right hk))] at hh
  by_contra hno
  exact absurd (hh.2 (iff_of_true ((hp _).2 (.inl rfl)) (by simpa using hno))) (by simp)

/-- Around every exterior ring that is around a hole there is one of its holes. -/
theorem Nested.chain : ∀ (m : Nat) (c : Nat), c ∈ input → isHole (ringOf c) = true → (by classical exact ((Finset.range n).filter (RingIn geom input ringOf (ringOf c))).card ≤ m) →
    ∀ x, isHole x = false → RingIn geom input ringOf (ringOf c) x →
      ∃ d ∈ input, isHole (ringOf d) = true ∧ par (ringOf d) = x ∧ (ringOf d = ringOf c ∨ RingIn geom input ringOf (ringOf c) (ringOf d)) := by
  classical
  intro m
  induction m with
  | zero =>
    intro c hc hh hm x hx hin
    obtain ⟨-, d, hd, rfl⟩ := ringIn_mem H N.side hin
    have : ringOf d ∈ (Finset.range n).filter (RingIn geom input ringOf (ringOf c)) := by
      rw [Finset.mem_filter, Finset.mem_range]; exact ⟨H.bound d hd, hin⟩
    rw [Nat.le_zero, Finset.card_eq_zero] at hm
    rw [hm] at this
    simp at this
  | succ m ih =>
    intro c hc hh hm x hx hin
    obtain ⟨p1, p2⟩ := N.hol c hc hh
    by_cases hxp : x = par (ringOf c)
    · exact ⟨c, hc, hh, hxp.symm, .inl rfl⟩
    have hpx := ((p2 x).1 hin).resolve_left hxp
    obtain ⟨⟨p, hp, hpr⟩, -⟩ := ringIn_mem H N.side hpx
    rw [← hpr] at p1 hpx
    rcases N.nest p hp with q | ⟨z, hz, q⟩
    · exact absurd hpx (q x)
    have hzh := N.ext H hp hz p1.1 q
    have hxz : x ≠ ringOf z := by rintro rfl; rw [hzh] at hx; cases hx
    have hzx := ((q x).1 hpx).resolve_left hxz
    have sub : ∀ k, k = ringOf z ∨ RingIn geom input ringOf (ringOf z) k → RingIn geom input ringOf (ringOf c) k := fun k hk => (p2 k).2 (.inr (hpr ▸ (q k).2 hk))
    have hcard : ((Finset.range n).filter (RingIn geom input ringOf (ringOf z))).card < ((Finset.range n).filter (RingIn geom input ringOf (ringOf c))).card := by
      refine Finset.card_lt_card ⟨?_, ?_⟩
      · intro k hk
        rw [Finset.mem_filter] at hk ⊢
        exact ⟨hk.1, sub k (.inr hk.2)⟩
      · intro hsub
        have : ringOf z ∈ (Finset.range n).filter (RingIn geom input ringOf (ringOf z)) := hsub (by
          rw [Finset.mem_filter, Finset.mem_range]; exact ⟨H.bound z hz, sub _ (.inl rfl)⟩)
        exact (Finset.mem_filter.1 this).2.1 rfl
    obtain ⟨d, d1, d2, d3, d4⟩ := ih z hz hzh (by omega) x hx hzx
    exact ⟨d, d1, d2, d3, .inr (sub _ d4)⟩

/-- A point has an odd number of edges below it iff it is in an exterior ring and outside of its holes. -/
theorem Nested.inside (q : Pt K) : Odd (input.countP fun c => decide (Under q (geom c).first (geom c).second)) ↔
    ∃ x, Ext isHole n x ∧ InRing geom input ringOf x q ∧ ∀ h, isHole h = true → par h = x → ¬ InRing geom input ringOf h q := by
  have hmem : ∀ k, InRing geom input ringOf k q → ∃ d ∈ input, ringOf d = k := by
    intro k h
    obtain ⟨f, hf, hfu⟩ := List.countP_pos_iff.1 h.pos
    exact ⟨f, hf, (of_decide_eq_true hfu).1⟩
  rcases N.pts q with hnone | ⟨z, hz, hin⟩
  · refine iff_of_false ?_ ?_
    · intro hodd
      obtain ⟨f, hf, hfu⟩ := List.countP_pos_iff.1 hodd.pos
      -- the ring of some edge has an odd number of them
      have hp : ∀ k, Par ringOf k (input.filter fun c => decide (Under q (geom c).first (geom c).second)) ↔ InRing geom input ringOf k q :=
        H.prefix_par (H.he.nodup.filter _) fun c => by rw [List.mem_filter, decide_eq_true_eq]
      have h1 := par_rest (ringOf := ringOf) (r := n) (n := n) (A := input.filter fun c => decide (Under q (geom c).first (geom c).second)) (B := [])
        (fun c hc => H.bound c (List.mem_of_mem_filter hc)) (by simp) (fun k _ => iff_of_false (fun h => hnone k ((hp k).1 h)) par_nil)
      rw [List.countP_nil] at h1
      have h2 : (input.filter fun c => decide (Under q (geom c).first (geom c).second)).countP (fun c => decide (ringOf c ≠ n)) =
          (input.filter fun c => decide (Under q (geom c).first (geom c).second)).length := by
        rw [List.countP_eq_length]
        intro c hc
        exact decide_eq_true (H.bound c (List.mem_of_mem_filter hc)).ne
      rw [h2, ← List.countP_eq_length_filter] at h1
      exact absurd (h1.1 hodd) (by simp)
    · rintro ⟨x, -, hx, -⟩; exact hnone x hx
  rw [N.parity H hz hin]
  constructor
  · intro hx
    refine ⟨ringOf z, ⟨hx, H.bound z hz⟩, (hin _).2 (.inl rfl), ?_⟩
    intro h hh hp hq
    obtain ⟨d, hd, rfl⟩ := hmem h hq
    have h1 := ((hin (ringOf d)).1 hq).resolve_left (by intro e; rw [e, hx] at hh; cases hh)
    obtain ⟨-, p2⟩ := N.hol d hd hh
    have h2 := (p2 (ringOf z)).2 (.inl hp.symm)
    exact ringIn_asymm H N.side h1 h2
  · rintro ⟨x, hx, hxq, hno⟩
    by_contra hh
    have hh : isHole (ringOf z) = true := by simpa using hh
    have hxz : x ≠ ringOf z := by rintro rfl; rw [hx.1] at hh; cases hh
    have h1 := ((hin x).1 hxq).resolve_left hxz
    obtain ⟨d, d1, d2, d3, d4⟩ := N.chain H _ z hz hh (le_refl _) x hx.1 h1
    exact hno _ d2 d3 ((hin _).2 d4)

/-- What is around a ring: nothing, or some ring and what is around that. -/
theorem Nested.up : ∀ (m : Nat) (c : Nat), c ∈ input → (by classical exact ((Finset.range n).filter (RingIn geom input ringOf (ringOf c))).card ≤ m) →
    (∀ x y, RingIn geom input ringOf (ringOf c) x → RingIn geom input ringOf x y → RingIn geom input ringOf (ringOf c) y) ∧
    ∀ x y, RingIn geom input ringOf (ringOf c) x → RingIn geom input ringOf (ringOf c) y →
      x = y ∨ RingIn geom input ringOf x y ∨ RingIn geom input ringOf y x := by
  classical
  intro m
  induction m with
  | zero =>
    intro c hc hm
    have hno : ∀ x, ¬ RingIn geom input ringOf (ringOf c) x := by
      intro x hin
      obtain ⟨-, d, hd, rfl⟩ := ringIn_mem H N.side hin
      have : ringOf d ∈ (Finset.range n).filter (RingIn geom input ringOf (ringOf c)) := by
        rw [Finset.mem_filter, Finset.mem_range]; exact ⟨H.bound d hd, hin⟩
      rw [Nat.le_zero, Finset.card_eq_zero] at hm
      rw [hm] at this
      simp at this
    exact ⟨fun x y h => absurd h (hno x), fun x y h => absurd h (hno x)⟩
  | succ m ih =>
    intro c hc hm
    rcases N.nest c hc with q | ⟨z, hz, q⟩
    · exact ⟨fun x y h => absurd h (q x), fun x y h => absurd h (q x)⟩
    have hcard : ((Finset.range n).filter (RingIn geom input ringOf (ringOf z))).card < ((Finset.range n).filter (RingIn geom input ringOf (ringOf c))).card := by
      refine Finset.card_lt_card ⟨?_, ?_⟩
      · intro k hk
        rw [Finset.mem_filter] at hk ⊢
        exact ⟨hk.1, (q k).2 (.inr hk.2)⟩
      · intro hsub
        have : ringOf z ∈ (Finset.range n).filter (RingIn geom input ringOf (ringOf z)) := hsub (by
          rw [Finset.mem_filter, Finset.mem_range]; exact ⟨H.bound z hz, (q _).2 (.inl rfl)⟩)
        exact (Finset.mem_filter.1 this).2.1 rfl
    obtain ⟨i1, i2⟩ := ih z hz (by omega)
    constructor
    · intro x y hx hy
      rcases (q x).1 hx with rfl | hx
      · exact (q y).2 (.inr hy)
      · exact (q y).2 (.inr (i1 x y hx hy))
    · intro x y hx hy
      rcases (q x).1 hx with rfl | hx <;> rcases (q y).1 hy with rfl | hy
      · exact .inl rfl
      · exact .inr (.inl hy)
      · exact .inr (.inr hx)
      · exact i2 x y hx hy

theorem Nested.inside_up {q : Pt K} {x y : Nat} (hx : InRing geom input ringOf x q) (h : RingIn geom input ringOf x y) : InRing geom input ringOf y q := by
  rcases N.pts q with hnone | ⟨z, hz, hin⟩
  · exact absurd hx (hnone x)
  · rcases (hin x).1 hx with rfl | k
    · exact (hin y).2 (.inr h)
    · exact (hin y).2 (.inr ((N.up H _ z hz (le_refl _)).1 x y k h))

theorem Nested.inside_comp {q : Pt K} {x y : Nat} (hx : InRing geom input ringOf x q) (hy : InRing geom input ringOf y q) :
    x = y ∨ RingIn geom input ringOf x y ∨ RingIn geom input ringOf y x := by
  rcases N.pts q with hnone | ⟨z, hz, hin⟩
  · exact absurd hx (hnone x)
  · rcases (hin x).1 hx with rfl | hx <;> rcases (hin y).1 hy with rfl | hy
    · exact .inl rfl
    · exact .inr (.inl hy)
    · exact .inr (.inr hx)
    · exact (N.up H _ z hz (le_refl _)).2 x y hx hy

/-- A hole is inside its parent. -/
theorem Nested.hole_in {q : Pt K} {c : Nat} (hc : c ∈ input) (hh : isHole (ringOf c) = true) (h : InRing geom input ringOf (ringOf c) q) :
    InRing geom input ringOf (par (ringOf c)) q := by
  obtain ⟨-, p2⟩ := N.hol c hc hh
  exact N.inside_up H h ((p2 _).2 (.inl rfl))

/-- A hole is not in another one of the same ring. -/
theorem Nested.hole_not_in {c d : Nat} (hc : c ∈ input) (hd : d ∈ input) (hch : isHole (ringOf c) = true) (hdh : isHole (ringOf d) = true)
    (hp : par (ringOf c) = par (ringOf d)) : ¬ RingIn geom input ringOf (ringOf c) (ringOf d) := by
  intro h
  obtain ⟨p1, p2⟩ := N.hol c hc hch
  obtain ⟨-, q2⟩ := N.hol d hd hdh
  have h3 := (q2 _).2 (.inl rfl)
  rw [← hp] at h3
  rcases (p2 _).1 h with e | k
  · rw [e, p1.1] at hdh; cases hdh
  · exact ringIn_asymm H N.side h3 k

/-- The holes of one ring are apart. -/
theorem Nested.holes_apart {q : Pt K} {c d : Nat} (hc : c ∈ input) (hd : d ∈ input) (hch : isHole (ringOf c) = true) (hdh : isHole (ringOf d) = true)
    (hp : par (ringOf c) = par (ringOf d)) (h1 : InRing geom input ringOf (ringOf c) q) (h2 : InRing geom input ringOf (ringOf d) q) : ringOf c = ringOf d := by
  rcases N.inside_comp H h1 h2 with h | h | h
  · exact h
  · exact absurd h (N.hole_not_in H hc hd hch hdh hp)
  · exact absurd h (N.hole_not_in H hd hc hdh hch hp.symm)

/-- A point is in the region of one exterior ring only. -/
theorem Nested.ext_unique {q : Pt K} {x y : Nat} (hx : isHole x = false) (hy : isHole y = false) (hxq : InRing geom input ringOf x q)
    (hyq : InRing geom input ringOf y q) (hx' : ∀ h, isHole h = true → par h = x → ¬ InRing geom input ringOf h q)
    (hy' : ∀ h, isHole h = true → par h = y → ¬ InRing geom input ringOf h q) : x = y := by
  have key : ∀ x y, isHole x = false → isHole y = false → InRing geom input ringOf x q → (∀ h, isHole h = true → par h = y → ¬ InRing geom input ringOf h q) →
      ¬ RingIn geom input ringOf x y := by
    intro x y hx hy hxq hy' h
    obtain ⟨⟨c, hc, rfl⟩, -⟩ := ringIn_mem H N.side h
    rcases N.nest c hc with e | ⟨u, hu, e⟩
    · exact e y h
    have huh := N.ext H hc hu hx e
    have hyu := ((e y).1 h).resolve_left (by rintro rfl; rw [hy] at huh; cases huh)
    obtain ⟨d, d1, d2, d3, d4⟩ := N.chain H _ u hu huh (le_refl _) y hy hyu
    refine hy' _ d2 d3 (N.inside_up H hxq ((e _).2 d4))
  rcases N.inside_comp H hxq hyq with h | h | h
  · exact h
  · exact absurd h (key x y hx hy hxq hy')
  · exact absurd h (key y x hy hx hyq hx')

end

end GeoCrossings
