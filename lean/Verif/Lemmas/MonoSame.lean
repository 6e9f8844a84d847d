import Verif.Lemmas.MonoInit

/-!
# What `monotone_chains` does depends on the edges alone

Two numberings of the same edges: the gaps change in the same way at every vertex, and the links that are reported differ at most in
parts that are not used.
-/
set_option linter.unusedSectionVars false
namespace GeoCrossings.Monotone
open Spec

variable {K : Type} [Field K] [LinearOrder K] [IsStrictOrderedRing K]

/-! ## The parts of a link that are used -/

/-- The link, with the parts that `monotone_chains` does not look at replaced. -/
def Link.core (ty : VertexType) : Link K → Link K
  | .cont p c n _ => .cont p c n .clockwise
  | .merge p n l => .merge p n (if ty = .split then l else none)
  | .finish _ _ s => .finish s s s
  | .start r t b => .start r t b
  | .split p n t b => .split p n t b

theorem mergeChain_core (ty : VertexType) (next : Pt K) (l : Option (Pt K × Pt K)) :
    mergeChain ty next (if ty = .split then l else none) = mergeChain ty next l := by
  funext c
  unfold mergeChain
  by_cases h : ty = .split <;> simp [h]

theorem applyLink_core (dbg : Bool) (pt : Pt K) (ty : VertexType) (s : List (Chain K) × Option Nat) (l : Link K) :
    applyLink dbg pt ty s (l.core ty) = applyLink dbg pt ty s l := by
  obtain ⟨chains, ci⟩ := s
  cases l with
  | merge p n l => simp only [Link.core, applyLink, applyMerge, mergeChain_core]
  | _ => rfl

theorem foldl_core (dbg : Bool) (pt : Pt K) (ty : VertexType) : ∀ (l : List (Link K)) (s : List (Chain K) × Option Nat),
    (l.map (Link.core ty)).foldlM (applyLink dbg pt ty) s = l.foldlM (applyLink dbg pt ty) s
  | [], _ => rfl
  | a :: l, s => by
    rw [List.map_cons, List.foldlM_cons, List.foldlM_cons, applyLink_core]
    cases applyLink dbg pt ty s a with
    | none => rfl
    | some s' => exact foldl_core dbg pt ty l s'

theorem applyEvent_core (dbg : Bool) (chains : List (Chain K)) {e e' : SweepEvent K} (h1 : e.pt = e'.pt) (h2 : e.ty = e'.ty)
    (h3 : e.links.map (Link.core e.ty) = e'.links.map (Link.core e'.ty)) : applyEvent dbg chains e = applyEvent dbg chains e' := by
  unfold applyEvent
  rw [← foldl_core, h3, h1, h2, foldl_core]

/-! ## A step is determined by the gaps -/

variable {n : Nat} {ed : Nat → Sg K} {top : Nat → Bool} {u v : Pt K}

theorem Act.unique (E : Edges n ed top) {A A' : List Nat} (h : Act n ed u A) (h' : Act n ed u A') : A = A' := by
  refine List.Perm.eq_of_pairwise (le := fun i j => (ed i).Lt (ed j)) (fun a b ha hb x y => ?_) h.sorted h'.sorted
    ((List.perm_ext_iff_of_nodup (h.nodup E) (h'.nodup E)).2 fun k => by rw [h.mem, h'.mem])
  obtain ⟨a1, a2, -, -⟩ := (h.mem a).1 ha
  obtain ⟨b1, b2, -, -⟩ := (h'.mem b).1 hb
  exact absurd y (GeoCrossings.lt_asymm (E.lt a a1 a2) (E.lt b b1 b2) x)

/-- A list without repetitions is cut in one way at an element. -/
theorem cut_unique {α : Type _} : ∀ {a b a' b' : List α} {x : α}, (a ++ x :: b).Nodup → a ++ x :: b = a' ++ x :: b' → a = a' ∧ b = b'
  | [], b, [], b', x, _, h => by simpa using h
  | [], b, y :: a', b', x, hn, h => by
    simp only [List.nil_append, List.cons_append, List.cons.injEq] at h
    obtain ⟨rfl, h⟩ := h
    rw [List.nil_append, List.nodup_cons, h] at hn
    simp at hn
  | y :: a, b, [], b', x, hn, h => by
    simp only [List.nil_append, List.cons_append, List.cons.injEq] at h
    obtain ⟨rfl, h⟩ := h
    rw [List.cons_append, List.nodup_cons] at hn
    simp at hn
  | y :: a, b, y' :: a', b', x, hn, h => by
    simp only [List.cons_append, List.cons.injEq] at h
    obtain ⟨rfl, h⟩ := h
    rw [List.cons_append, List.nodup_cons] at hn
    obtain ⟨h1, h2⟩ := cut_unique hn.2 h
    exact ⟨by rw [h1], h2⟩

theorem gap_unique {gs : List (Gap K)} (hn : (flat gs).Nodup) {g g' : Gap K} (h : g ∈ gs) (h' : g' ∈ gs) (e : g.b = g'.b ∨ g.t = g'.t) : g = g' := by
  induction gs with
  | nil => simp at h
  | cons a gs ih =>
    rw [flat_cons, List.nodup_cons, List.nodup_cons] at hn
    obtain ⟨n1, n2, n3⟩ := hn
    have n1' : a.b ∉ flat gs := fun h => n1 (List.mem_cons_of_mem _ h)
    rw [List.mem_cons] at h h'
    rcases h with rfl | h <;> rcases h' with rfl | h'
    · rfl
    · exfalso
      rcases e with e | e
      · exact n1' (e ▸ (mem_flat_of h').1)
      · exact n2 (e ▸ (mem_flat_of h').2)
    · exfalso
      rcases e with e | e
      · exact n1' (e ▸ (mem_flat_of h).1)
      · exact n2 (e ▸ (mem_flat_of h).2)
    · exact ih n3 h h'

theorem gaps_nodup {gs : List (Gap K)} (hn : (flat gs).Nodup) : gs.Nodup := by
  induction gs with
  | nil => simp
  | cons a gs ih =>
    rw [flat_cons, List.nodup_cons, List.nodup_cons] at hn
    exact List.nodup_cons.2 ⟨fun h => hn.1 (List.mem_cons_of_mem _ (mem_flat_of h).1), ih hn.2.2⟩

theorem flat_inj : ∀ {G G' : List (Gap K)}, (∃ H H', G ++ H = G' ++ H') → flat G = flat G' → G = G'
  | [], [], _, _ => rfl
  | [], a :: G', _, h => by simp at h
  | a :: G, [], _, h => by simp at h
  | a :: G, a' :: G', ⟨H, H', e⟩, h => by
    simp only [List.cons_append, List.cons.injEq] at e
    obtain ⟨rfl, e⟩ := e
    simp only [flat_cons, List.cons.injEq, true_and] at h
    rw [flat_inj ⟨H, H', e⟩ h]

/-- The kind of a vertex by the edges at it. -/
theorem LStep.kind {gs gs' : List (Gap K)} {ty : VertexType} {l : List (Link K)} (hr : ∀ k ∈ flat gs, 1 ≤ k ∧ k ≤ n)
    (ho : ∀ g ∈ gs, top g.b = false ∧ top g.t = true) (hn : (flat gs).Nodup) (h : LStep n ed top v gs ty l gs') :
    (∃ i j, (1 ≤ i ∧ i ≤ n) ∧ (1 ≤ j ∧ j ≤ n) ∧ (ed i).1 = v ∧ (ed j).1 = v ∧ 0 < det v (ed i).2 (ed j).2 ∧
      (ty = .start ∧ top i = false ∨ ty = .split ∧ top i = true)) ∨
    (ty = .cont ∧ ∃ i j, (1 ≤ i ∧ i ≤ n) ∧ (1 ≤ j ∧ j ≤ n) ∧ (ed i).2 = v ∧ (ed j).1 = v) ∨
    (∃ i j, (1 ≤ i ∧ i ≤ n) ∧ (1 ≤ j ∧ j ≤ n) ∧ (ed i).2 = v ∧ (ed j).2 = v ∧ top i = false ∧ top j = true ∧
      (ty = .finish ∧ (∃ g ∈ gs, g.b = i ∧ g.t = j) ∨ ty = .merge ∧ ¬ ∃ g ∈ gs, g.b = i ∧ g.t = j)) := by
  cases h with
  | start G1 G2 i j ri rj ei ej hi hj hd => exact .inl ⟨i, j, ri, rj, ei, ej, hd, .inl ⟨rfl, hi⟩⟩
  | split G1 g G2 i j ri rj ei ej hi hj hd hsel => exact .inl ⟨i, j, ri, rj, ei, ej, hd, .inr ⟨rfl, hi⟩⟩
  | contBot G1 g G2 j rj ej eb hj limbs w => exact .inr (.inl ⟨rfl, g.b, j, hr _ (by simp), rj, eb, ej⟩)
  | contTop G1 g G2 j rj ej et hj limbs w => exact .inr (.inl ⟨rfl, g.t, j, hr _ (by simp), rj, et, ej⟩)
  | finish G1 g G2 eb et limbs a b =>
    exact .inr (.inr ⟨g.b, g.t, hr _ (by simp), hr _ (by simp), eb, et, (ho g (by simp)).1, (ho g (by simp)).2, .inl ⟨rfl, g, by simp, rfl, rfl⟩⟩)
  | merge G1 g g' G2 et eb limbs limbs' =>
    refine .inr (.inr ⟨g'.b, g.t, hr _ (by simp), hr _ (by simp), eb, et, (ho g' (by simp)).1, (ho g (by simp)).2, .inr ⟨rfl, ?_⟩⟩)
    rintro ⟨a, ha, h1, h2⟩
    have e1 := gap_unique hn ha (g' := g') (by simp) (.inl h1)
    have e2 := gap_unique hn ha (g' := g) (by simp) (.inr h2)
    have := gaps_nodup hn
    rw [← e1, ← e2] at this
    simp [List.nodup_append] at this

theorem LStep.ty_eq (E : Edges n ed top) {gs g1 g2 : List (Gap K)} {t1 t2 : VertexType} {l1 l2 : List (Link K)}
    (hr : ∀ k ∈ flat gs, 1 ≤ k ∧ k ≤ n) (ho : ∀ g ∈ gs, top g.b = false ∧ top g.t = true) (hn : (flat gs).Nodup)
    (h1 : LStep n ed top v gs t1 l1 g1) (h2 : LStep n ed top v gs t2 l2 g2) : t1 = t2 := by
  have key : ∀ {a b k : Nat}, (1 ≤ a ∧ a ≤ n) → (1 ≤ b ∧ b ≤ n) → a ≠ b → EndOf (ed a) v → EndOf (ed b) v → (1 ≤ k ∧ k ≤ n) → EndOf (ed k) v →
    k = a ∨ k = b := fun ra rb hab ha hb rk hk => E.two_ends ra rb hab ha hb rk.1 rk.2 hk
  have no : ∀ {k : Nat}, (1 ≤ k ∧ k ≤ n) → (ed k).1 = v → (ed k).2 = v → False := fun rk a b => (E.lt _ rk.1 rk.2).ne (a.trans b.symm)
  have ndet : ∀ {i j : Nat}, 0 < det v (ed i).2 (ed j).2 → i ≠ j := by
    rintro i j hd rfl
    simp [det] at hd
    nlinarith
  rcases h1.kind hr ho hn with ⟨i, j, ri, rj, ei, ej, hd, hA⟩ | ⟨rfl, i, j, ri, rj, ei, ej⟩ | ⟨i, j, ri, rj, ei, ej, li, lj, hA⟩ <;>
  rcases h2.kind hr ho hn with ⟨i', j', ri', rj', ei', ej', hd', hA'⟩ | ⟨rfl, i', j', ri', rj', ei', ej'⟩ | ⟨i', j', ri', rj', ei', ej', li', lj', hA'⟩
  · have q1 := key ri rj (ndet hd) (.inl ei.symm) (.inl ej.symm) ri' (.inl ei'.symm)
    have q2 := key ri rj (ndet hd) (.inl ei.symm) (.inl ej.symm) rj' (.inl ej'.symm)
    have q3 := ndet hd'
    have : i' = i := by
      rcases q1 with q1 | q1
      · exact q1
      · rcases q2 with q2 | q2
        · exfalso
          subst q1 q2
          have : det v (ed i').2 (ed j').2 = - det v (ed j').2 (ed i').2 := by simp only [det]; ring
          linarith
        · exact absurd (q1.trans q2.symm) q3
    subst this
    rcases hA with ⟨rfl, a⟩ | ⟨rfl, a⟩ <;> rcases hA' with ⟨rfl, b⟩ | ⟨rfl, b⟩ <;> first | rfl | (rw [a] at b; cases b)
  · exfalso
    rcases key ri rj (ndet hd) (.inl ei.symm) (.inl ej.symm) ri' (.inr ei'.symm) with rfl | rfl
    · exact no ri' ei ei'
    · exact no ri' ej ei'
  · exfalso
    rcases key ri rj (ndet hd) (.inl ei.symm) (.inl ej.symm) ri' (.inr ei'.symm) with rfl | rfl
    · exact no ri' ei ei'
    · exact no ri' ej ei'
  · exfalso
    rcases key ri' rj' (ndet hd') (.inl ei'.symm) (.inl ej'.symm) ri (.inr ei.symm) with rfl | rfl
    · exact no ri ei' ei
    · exact no ri ej' ei
  · rfl
  · exfalso
    have : i' ≠ j' := by rintro rfl; rw [li'] at lj'; cases lj'
    rcases key ri' rj' this (.inr ei'.symm) (.inr ej'.symm) rj (.inl ej.symm) with rfl | rfl
    · exact no rj ej ei'
    · exact no rj ej ej'
  · exfalso
    rcases key ri' rj' (ndet hd') (.inl ei'.symm) (.inl ej'.symm) ri (.inr ei.symm) with rfl | rfl
    · exact no ri ei' ei
    · exact no ri ej' ei
  · exfalso
    have : i ≠ j := by rintro rfl; rw [li] at lj; cases lj
    rcases key ri rj this (.inr ei.symm) (.inr ej.symm) rj' (.inl ej'.symm) with rfl | rfl
    · exact no rj' ej' ei
    · exact no rj' ej' ej
  · have : i ≠ j := by rintro rfl; rw [li] at lj; cases lj
    have q1 : i' = i := by
      rcases key ri rj this (.inr ei.symm) (.inr ej.symm) ri' (.inr ei'.symm) with q | q
      · exact q
      · rw [← q, li'] at lj; cases lj
    have q2 : j' = j := by
      rcases key ri rj this (.inr ei.symm) (.inr ej.symm) rj' (.inr ej'.symm) with q | q
      · rw [← q, lj'] at li; cases li
      · exact q
    subst q1 q2
    rcases hA with ⟨rfl, a⟩ | ⟨rfl, a⟩ <;> rcases hA' with ⟨rfl, b⟩ | ⟨rfl, b⟩
    · rfl
    · exact absurd a b
    · exact absurd b a
    · rfl

theorem same_ends (E : Edges n ed top) {a b a' b' : Nat} (ra : 1 ≤ a ∧ a ≤ n) (rb : 1 ≤ b ∧ b ≤ n) (ra' : 1 ≤ a' ∧ a' ≤ n)
    (rb' : 1 ≤ b' ∧ b' ≤ n) (ha : EndOf (ed a) v) (hb : EndOf (ed b) v) (ha' : EndOf (ed a') v) (hb' : EndOf (ed b') v)
    {P : Nat → Prop} (pa : P a) (pb : ¬ P b) (pa' : P a') (pb' : ¬ P b') : a = a' ∧ b = b' := by
  have hab : a ≠ b := fun h => pb (h ▸ pa)
  constructor
  · rcases E.two_ends ra rb hab ha hb ra'.1 ra'.2 ha' with h | h
    · exact h.symm
    · exact absurd (h ▸ pa') pb
  · rcases E.two_ends ra rb hab ha hb rb'.1 rb'.2 hb' with h | h
    · exact absurd (h ▸ pa) pb'
    · exact h.symm

theorem cut_gap {G1 G2 G1' G2' : List (Gap K)} {g g' : Gap K} (hn : (flat (G1 ++ g :: G2)).Nodup) (he : G1 ++ g :: G2 = G1' ++ g' :: G2')
    (e : g.b = g'.b ∨ g.t = g'.t) : G1 = G1' ∧ g = g' ∧ G2 = G2' := by
  have : g = g' := gap_unique hn (by simp) (by rw [he]; simp) e
  subst this
  obtain ⟨h1, h2⟩ := cut_unique (gaps_nodup hn) he
  exact ⟨h1, rfl, h2⟩

/-- **What happens at a vertex is determined by the gaps.** -/
theorem LStep.determ (E : Edges n ed top) {gs gs' g1 g2 : List (Gap K)} {t1 t2 : VertexType} {l1 l2 : List (Link K)}
    (hI : GInv n ed top u gs) (he : gs = gs') (h1 : LStep n ed top v gs t1 l1 g1) (h2 : LStep n ed top v gs' t2 l2 g2)
    (A1 : Act n ed v (flat g1)) (A2 : Act n ed v (flat g2)) :
    t1 = t2 ∧ l1.map (Link.core t1) = l2.map (Link.core t2) ∧ g1 = g2 := by
  have hr : ∀ k ∈ flat gs, 1 ≤ k ∧ k ≤ n := fun k hk => ⟨((hI.act.mem k).1 hk).1, ((hI.act.mem k).1 hk).2.1⟩
  have ho : ∀ g ∈ gs, top g.b = false ∧ top g.t = true := fun g hg => ⟨(hI.ok g hg).labB, (hI.ok g hg).labT⟩
  have hn := hI.act.nodup E
  have hty := LStep.ty_eq E hr ho hn h1 (he ▸ h2)
  have hf := A1.unique E A2
  have n1 := A1.nodup E
  refine ⟨hty, ?_⟩
  have hr' := he ▸ hr
  have ho' := he ▸ ho
  clear hI A1 A2
  have no : ∀ {k : Nat}, (1 ≤ k ∧ k ≤ n) → (ed k).2 = v → (ed k).1 ≠ v := fun rk a b => (E.lt _ rk.1 rk.2).ne (b.trans a.symm)
  cases h1 with
  | start G1 G2 i j ri rj ei ej hi hj hd =>
    cases h2 <;> try (cases hty; done)
    rename_i G1' G2' i' j' ri' rj' ei' ej' hi' hj' hd'
    obtain ⟨rfl, rfl⟩ := same_ends E ri rj ri' rj' (.inl ei.symm) (.inl ej.symm) (.inl ei'.symm) (.inl ej'.symm) (P := fun k => top k = false)
      hi (by simp [hj]) hi' (by simp [hj'])
    simp only [flat_append, flat_cons] at hf n1
    have := cut_unique n1 hf
    have e1 := flat_inj ⟨_, _, he⟩ this.1
    subst e1
    have e2 := List.append_cancel_left he
    subst e2
    exact ⟨rfl, rfl⟩
  | split G1 g G2 i j ri rj ei ej hi hj hd hsel =>
    cases h2 <;> try (cases hty; done)
    rename_i G1' g' G2' i' j' ri' rj' ei' ej' hi' hj' hd' hsel'
    obtain ⟨rfl, rfl⟩ := same_ends E rj ri rj' ri' (.inl ej.symm) (.inl ei.symm) (.inl ej'.symm) (.inl ei'.symm) (P := fun k => top k = false)
      hj (by simp [hi]) hj' (by simp [hi'])
    simp only [flat_append, flat_cons] at hf n1
    rw [List.append_cons, List.append_cons (flat G1')] at hf
    rw [List.append_cons] at n1
    have := (cut_unique n1 hf).1
    obtain ⟨-, e⟩ := List.append_inj' this rfl
    obtain ⟨rfl, rfl, rfl⟩ := cut_gap hn he (.inl (by simpa using e))
    exact ⟨rfl, rfl⟩
  | contBot G1 g G2 j rj ej eb hj limbs w =>
    cases h2 <;> try (cases hty; done)
    · rename_i G1' g' G2' j' rj' ej' eb' hj' limbs' w'
      obtain ⟨rfl, e⟩ := same_ends E rj (hr g.b (by simp)) rj' (hr' g'.b (by simp)) (.inl ej.symm) (.inr eb.symm) (.inl ej'.symm) (.inr eb'.symm)
        (P := fun k => (ed k).1 = v) ej (no (hr g.b (by simp)) eb) ej' (no (hr' g'.b (by simp)) eb')
      obtain ⟨rfl, rfl, rfl⟩ := cut_gap hn he (.inl e)
      exact ⟨by cases g.mg <;> simp [Link.core], rfl⟩
    · exfalso
      rename_i G1' g' G2' j' rj' ej' eb' hj' limbs' w'
      obtain ⟨rfl, e⟩ := same_ends E rj (hr g.b (by simp)) rj' (hr' g'.t (by simp)) (.inl ej.symm) (.inr eb.symm) (.inl ej'.symm) (.inr eb'.symm)
        (P := fun k => (ed k).1 = v) ej (no (hr g.b (by simp)) eb) ej' (no (hr' g'.t (by simp)) eb')
      rw [hj] at hj'; cases hj'
  | contTop G1 g G2 j rj ej eb hj limbs w =>
    cases h2 <;> try (cases hty; done)
    · exfalso
      rename_i G1' g' G2' j' rj' ej' eb' hj' limbs' w'
      obtain ⟨rfl, e⟩ := same_ends E rj (hr g.t (by simp)) rj' (hr' g'.b (by simp)) (.inl ej.symm) (.inr eb.symm) (.inl ej'.symm) (.inr eb'.symm)
        (P := fun k => (ed k).1 = v) ej (no (hr g.t (by simp)) eb) ej' (no (hr' g'.b (by simp)) eb')
      rw [hj] at hj'; cases hj'
    · rename_i G1' g' G2' j' rj' ej' eb' hj' limbs' w'
      obtain ⟨rfl, e⟩ := same_ends E rj (hr g.t (by simp)) rj' (hr' g'.t (by simp)) (.inl ej.symm) (.inr eb.symm) (.inl ej'.symm) (.inr eb'.symm)
        (P := fun k => (ed k).1 = v) ej (no (hr g.t (by simp)) eb) ej' (no (hr' g'.t (by simp)) eb')
      obtain ⟨rfl, rfl, rfl⟩ := cut_gap hn he (.inr e)
      exact ⟨by cases g.mg <;> simp [Link.core], rfl⟩
  | finish G1 g G2 eb et limbs a b =>
    cases h2 <;> try (cases hty; done)
    rename_i G1' g' G2' eb' et' limbs' a' b'
    obtain ⟨e, -⟩ := same_ends E (hr g.b (by simp)) (hr g.t (by simp)) (hr' g'.b (by simp)) (hr' g'.t (by simp)) (.inr eb.symm) (.inr et.symm)
      (.inr eb'.symm) (.inr et'.symm) (P := fun k => top k = false) (ho g (by simp)).1 (by simp [(ho g (by simp)).2])
      (ho' g' (by simp)).1 (by simp [(ho' g' (by simp)).2])
    obtain ⟨rfl, rfl, rfl⟩ := cut_gap hn he (.inl e)
    exact ⟨by cases g.mg <;> simp [Link.core], rfl⟩
  | merge G1 g gg G2 et eb limbs limbs2 =>
    cases h2 <;> try (cases hty; done)
    rename_i G1' g' gg' G2' et' eb' limbs' limbs2'
    obtain ⟨-, e⟩ := same_ends E (hr gg.b (by simp)) (hr g.t (by simp)) (hr' gg'.b (by simp)) (hr' g'.t (by simp)) (.inr eb.symm) (.inr et.symm)
      (.inr eb'.symm) (.inr et'.symm) (P := fun k => top k = false) (ho gg (by simp)).1 (by simp [(ho g (by simp)).2])
      (ho' gg' (by simp)).1 (by simp [(ho' g' (by simp)).2])
    obtain ⟨rfl, rfl, e2⟩ := cut_gap hn he (.inr e)
    obtain ⟨rfl, rfl⟩ := List.cons.inj e2
    exact ⟨by cases g.mg <;> cases gg.mg <;> simp [Link.core], rfl⟩

/-! ## Two numberings of the same edges -/

/-- `σ` maps the keys of one numbering to those of another. -/
structure Ren (n : Nat) (ed : Nat → Sg K) (n' : Nat) (ed' : Nat → Sg K) (σ : Nat → Nat) : Prop where
  rng : ∀ k, 1 ≤ k → k ≤ n → 1 ≤ σ k ∧ σ k ≤ n'
  same : ∀ k, 1 ≤ k → k ≤ n → ed' (σ k) = ed k
  surj : ∀ k', 1 ≤ k' → k' ≤ n' → ∃ k, 1 ≤ k ∧ k ≤ n ∧ σ k = k'

theorem Edges.inj (E : Edges n ed top) {i j : Nat} (i1 : 1 ≤ i) (i2 : i ≤ n) (j1 : 1 ≤ j) (j2 : j ≤ n) (h : ed i = ed j) : i = j := by
  by_contra hne
  have := E.det_ll i1 i2 j1 j2 hne (by rw [h])
  rw [h] at this
  exact this (by simp only [det]; ring)

variable {n' : Nat} {ed' : Nat → Sg K} {top' : Nat → Bool} {σ : Nat → Nat}

/-- Numberings of the same set of edges are renamings of each other. -/
theorem Ren.exists (E' : Edges n' ed' top') (h : ∀ e, (∃ k, 1 ≤ k ∧ k ≤ n ∧ ed k = e) ↔ ∃ k, 1 ≤ k ∧ k ≤ n' ∧ ed' k = e) :
    ∃ σ, Ren n ed n' ed' σ := by
  classical
  have h1 : ∀ k, ∃ k', 1 ≤ k → k ≤ n → 1 ≤ k' ∧ k' ≤ n' ∧ ed' k' = ed k := by
    intro k
    by_cases hk : 1 ≤ k ∧ k ≤ n
    · obtain ⟨k', h'⟩ := (h (ed k)).1 ⟨k, hk.1, hk.2, rfl⟩
      exact ⟨k', fun _ _ => h'⟩
    · exact ⟨0, fun a b => absurd ⟨a, b⟩ hk⟩
  choose σ hσ using h1
  refine ⟨σ, fun k a b => ⟨(hσ k a b).1, (hσ k a b).2.1⟩, fun k a b => (hσ k a b).2.2, fun k' a b => ?_⟩
  obtain ⟨k, k1, k2, e⟩ := (h (ed' k')).2 ⟨k', a, b, rfl⟩
  refine ⟨k, k1, k2, E'.inj (hσ k k1 k2).1 (hσ k k1 k2).2.1 a b ?_⟩
  rw [(hσ k k1 k2).2.2, e]

theorem Ren.perm (E : Edges n ed top) (h : Ren n ed n' ed' σ) : ((List.range' 1 n).map σ).Perm (List.range' 1 n') := by
  refine (List.perm_ext_iff_of_nodup ?_ List.nodup_range').2 fun k => ?_
  · refine List.Nodup.map_on ?_ List.nodup_range'
    intro a ha b hb e
    rw [List.mem_range'_1] at ha hb
    refine E.inj ha.1 (by omega) hb.1 (by omega) ?_
    rw [← h.same a ha.1 (by omega), ← h.same b hb.1 (by omega), e]
  · rw [List.mem_map, List.mem_range'_1]
    constructor
    · rintro ⟨a, ha, rfl⟩
      rw [List.mem_range'_1] at ha
      have := h.rng a ha.1 (by omega)
      omega
    · rintro ⟨k1, k2⟩
      obtain ⟨a, a1, a2, rfl⟩ := h.surj k k1 (by omega)
      exact ⟨a, List.mem_range'_1.2 ⟨a1, by omega⟩, rfl⟩

/-- **The interior sides are determined by the edges.** -/
theorem Ren.labels (E : Edges n ed top) (E' : Edges n' ed' top') (h : Ren n ed n' ed' σ) : ∀ k, 1 ≤ k → k ≤ n → top' (σ k) = top k := by
  have par : ∀ v, ((List.range' 1 n').countP fun k => Passes v (ed' k)) = (List.range' 1 n).countP fun k => Passes v (ed k) := by
    intro v
    rw [← (h.perm E).countP_eq, List.countP_map]
    refine List.countP_congr fun k hk => ?_
    rw [List.mem_range'_1] at hk
    simp only [Function.comp, h.same k hk.1 (by omega)]
  have main : ∀ (m : Nat) k, ((List.range' 1 n).countP fun x => (ed x).1 < (ed k).1) < m → 1 ≤ k → k ≤ n → top' (σ k) = top k := by
    intro m
    induction m with
    | zero => intro k hk; omega
    | succ m ih =>
      intro k hk k1 k2
      obtain ⟨j, j1, j2, hjk, hj, -⟩ := E.deg k k1 k2 (ed k).1 (.inl rfl)
      obtain ⟨sk1, sk2⟩ := h.rng k k1 k2
      obtain ⟨sj1, sj2⟩ := h.rng j j1 j2
      have hs : σ j ≠ σ k := fun e => hjk (E.inj j1 j2 k1 k2 (by rw [← h.same j j1 j2, ← h.same k k1 k2, e]))
      rcases hj with hj | hj
      · have low : ∀ a b, 1 ≤ a → a ≤ n → 1 ≤ b → b ≤ n → (ed a).1 = (ed b).1 → 0 < det (ed a).1 (ed a).2 (ed b).2 → top' (σ a) = top a := by
          intro a b a1 a2 b1 b2 e hd
          have p1 := E.par a b a1 a2 b1 b2 e hd
          have p2 := E'.par (σ a) (σ b) (h.rng a a1 a2).1 (h.rng a a1 a2).2 (h.rng b b1 b2).1 (h.rng b b1 b2).2
            (by rw [h.same a a1 a2, h.same b b1 b2, e]) (by rw [h.same a a1 a2, h.same b b1 b2]; exact hd)
          rw [par, h.same a a1 a2, ← p1] at p2
          revert p2
          cases top' (σ a) <;> cases top a <;> simp
        rcases lt_or_gt_of_ne (E.det_ll k1 k2 j1 j2 (Ne.symm hjk) hj) with hd | hd
        · have e := low j k j1 j2 k1 k2 hj.symm (by
            have : det (ed j).1 (ed j).2 (ed k).2 = - det (ed k).1 (ed k).2 (ed j).2 := by rw [hj]; simp only [det]; ring
            rw [this]; linarith)
          have q1 := E.ll j k j1 j2 k1 k2 hjk hj.symm
          have q2 := E'.ll (σ j) (σ k) sj1 sj2 sk1 sk2 hs (by rw [h.same j j1 j2, h.same k k1 k2, hj])
          revert e q1 q2
          cases top' (σ j) <;> cases top j <;> cases top' (σ k) <;> cases top k <;> simp
        · exact low k j k1 k2 j1 j2 hj hd
      · have q1 := E.rl j k j1 j2 k1 k2 hj.symm
        have q2 := E'.rl (σ j) (σ k) sj1 sj2 sk1 sk2 (by rw [h.same j j1 j2, h.same k k1 k2, hj])
        rw [← q1, ← q2]
        refine ih j ?_ j1 j2
        refine lt_of_lt_of_le ?_ (Nat.lt_succ_iff.1 hk)
        have hlt := E.lt j j1 j2
        rw [← hj] at hlt
        rw [List.countP_eq_length_filter, List.countP_eq_length_filter]
        have hsub : ((List.range' 1 n).filter fun x => decide ((ed x).1 < (ed j).1)).Sublist ((List.range' 1 n).filter fun x => decide ((ed x).1 < (ed k).1)) := by
          refine List.monotone_filter_right _ fun x hx => ?_
          simp only [decide_eq_true_eq] at hx ⊢
          exact hx.trans hlt
        refine lt_of_le_of_ne hsub.length_le fun e => ?_
        have := hsub.eq_of_length e
        have hm : j ∈ (List.range' 1 n).filter fun x => decide ((ed x).1 < (ed k).1) :=
          List.mem_filter.2 ⟨List.mem_range'_1.2 ⟨j1, by omega⟩, by simpa using hlt⟩
        rw [← this, List.mem_filter] at hm
        simp at hm
  exact fun k => main _ k (Nat.lt_succ_self _)

def Gap.re (σ : Nat → Nat) (g : Gap K) : Gap K := ⟨σ g.b, σ g.t, g.h, g.mg⟩

theorem flat_re (σ : Nat → Nat) : ∀ gs : List (Gap K), flat (gs.map (Gap.re σ)) = (flat gs).map σ
  | [] => rfl
  | g :: gs => by simp [Gap.re, flat_re σ gs]

theorem Ren.act (h : Ren n ed n' ed' σ) {A : List Nat} (hA : Act n ed u A) : Act n' ed' u (A.map σ) where
  mem := by
    intro k'
    rw [List.mem_map]
    constructor
    · rintro ⟨k, hk, rfl⟩
      obtain ⟨k1, k2, k3, k4⟩ := (hA.mem k).1 hk
      exact ⟨(h.rng k k1 k2).1, (h.rng k k1 k2).2, by rw [h.same k k1 k2]; exact k3, by rw [h.same k k1 k2]; exact k4⟩
    · rintro ⟨k1, k2, k3, k4⟩
      obtain ⟨k, a1, a2, rfl⟩ := h.surj k' k1 k2
      rw [h.same k a1 a2] at k3 k4
      exact ⟨k, (hA.mem k).2 ⟨a1, a2, k3, k4⟩, rfl⟩
  sorted := by
    rw [List.pairwise_map]
    refine hA.sorted.imp_of_mem ?_
    intro i j hi hj hl
    obtain ⟨i1, i2, -⟩ := (hA.mem i).1 hi
    obtain ⟨j1, j2, -⟩ := (hA.mem j).1 hj
    rw [h.same i i1 i2, h.same j j1 j2]
    exact hl

theorem Ren.step (h : Ren n ed n' ed' σ) (ht : ∀ k, 1 ≤ k → k ≤ n → top' (σ k) = top k) {gs g1 : List (Gap K)} {ty : VertexType} {l : List (Link K)}
    (hr : ∀ k ∈ flat gs, 1 ≤ k ∧ k ≤ n) (hL : LStep n ed top v gs ty l g1) :
    LStep n' ed' top' v (gs.map (Gap.re σ)) ty l (g1.map (Gap.re σ)) := by
  have sm : ∀ {k : Nat}, (1 ≤ k ∧ k ≤ n) → ed' (σ k) = ed k := fun hk => h.same _ hk.1 hk.2
  have tp : ∀ {k : Nat}, (1 ≤ k ∧ k ≤ n) → top' (σ k) = top k := fun hk => ht _ hk.1 hk.2
  have rg : ∀ {k : Nat}, (1 ≤ k ∧ k ≤ n) → 1 ≤ σ k ∧ σ k ≤ n' := fun hk => h.rng _ hk.1 hk.2
  cases hL with
  | start G1 G2 i j ri rj ei ej hi hj hd =>
    have := LStep.start (n := n') (ed := ed') (top := top') (v := v) (G1.map (Gap.re σ)) (G2.map (Gap.re σ)) (σ i) (σ j) (rg ri) (rg rj)
      (by rw [sm ri, ei]) (by rw [sm rj, ej]) (by rw [tp ri, hi]) (by rw [tp rj, hj]) (by rw [sm ri, sm rj]; exact hd)
    rw [sm ri, sm rj] at this
    rw [List.map_append, List.map_append]
    exact this
  | split G1 g G2 i j ri rj ei ej hi hj hd hsel =>
    have := LStep.split (n := n') (ed := ed') (top := top') (v := v) (G1.map (Gap.re σ)) (g.re σ) (G2.map (Gap.re σ)) (σ i) (σ j) (rg ri) (rg rj)
      (by rw [sm ri, ei]) (by rw [sm rj, ej]) (by rw [tp ri, hi]) (by rw [tp rj, hj]) (by rw [sm ri, sm rj]; exact hd)
      (by
        intro hm x y x1 x2 y1 y2 ex ey tx ty
        obtain ⟨x, a1, a2, rfl⟩ := h.surj x x1 x2
        obtain ⟨y, b1, b2, rfl⟩ := h.surj y y1 y2
        rw [sm ⟨a1, a2⟩] at ex
        rw [sm ⟨b1, b2⟩] at ey
        rw [tp ⟨a1, a2⟩] at tx
        rw [tp ⟨b1, b2⟩] at ty
        have := hsel hm x y a1 a2 b1 b2 ex ey tx ty
        rw [sm ⟨a1, a2⟩]
        show if 0 < det g.h (ed x).2 v then σ x = σ g.b else σ y = σ g.t
        split at this <;> rename_i hc
        · rw [if_pos hc, this]
        · rw [if_neg hc, this])
    rw [sm ri, sm rj] at this
    rw [List.map_append, List.map_append]
    exact this
  | contBot G1 g G2 j rj ej eb hj limbs w =>
    have rb := hr g.b (by simp)
    have := LStep.contBot (n := n') (ed := ed') (top := top') (v := v) (G1.map (Gap.re σ)) (g.re σ) (G2.map (Gap.re σ)) (σ j) (rg rj)
      (by rw [sm rj, ej]) (by rw [Gap.re, sm rb, eb]) (by rw [tp rj, hj]) limbs w
    simp only [Gap.re, sm rb, sm rj] at this
    rw [List.map_append, List.map_append]
    exact this
  | contTop G1 g G2 j rj ej et hj limbs w =>
    have rb := hr g.t (by simp)
    have := LStep.contTop (n := n') (ed := ed') (top := top') (v := v) (G1.map (Gap.re σ)) (g.re σ) (G2.map (Gap.re σ)) (σ j) (rg rj)
      (by rw [sm rj, ej]) (by rw [Gap.re, sm rb, et]) (by rw [tp rj, hj]) limbs w
    simp only [Gap.re, sm rb, sm rj] at this
    rw [List.map_append, List.map_append]
    exact this
  | finish G1 g G2 eb et limbs a b =>
    have rb := hr g.b (by simp)
    have rt := hr g.t (by simp)
    have := LStep.finish (n := n') (ed := ed') (top := top') (v := v) (G1.map (Gap.re σ)) (g.re σ) (G2.map (Gap.re σ))
      (by rw [Gap.re, sm rb, eb]) (by rw [Gap.re, sm rt, et]) limbs a b
    rw [List.map_append, List.map_append]
    exact this
  | merge G1 g g' G2 et eb limbs limbs' =>
    have rb := hr g'.b (by simp)
    have rt := hr g.t (by simp)
    have := LStep.merge (n := n') (ed := ed') (top := top') (v := v) (G1.map (Gap.re σ)) (g.re σ) (g'.re σ) (G2.map (Gap.re σ))
      (by rw [Gap.re, sm rt, et]) (by rw [Gap.re, sm rb, eb]) limbs limbs'
    rw [List.map_append, List.map_append]
    exact this

/-! ## The runs -/

theorem Ren.end_of (h : Ren n ed n' ed' σ) {x : Pt K} : (∃ k, 1 ≤ k ∧ k ≤ n ∧ EndOf (ed k) x) ↔ ∃ k, 1 ≤ k ∧ k ≤ n' ∧ EndOf (ed' k) x := by
  constructor
  · rintro ⟨k, k1, k2, hk⟩
    exact ⟨σ k, (h.rng k k1 k2).1, (h.rng k k1 k2).2, by rw [h.same k k1 k2]; exact hk⟩
  · rintro ⟨k', k1, k2, hk⟩
    obtain ⟨k, a1, a2, rfl⟩ := h.surj k' k1 k2
    exact ⟨k, a1, a2, by rwa [h.same k a1 a2] at hk⟩

theorem Next.le_end (hv : Next n ed u v) {x : Pt K} (h : ∃ k, 1 ≤ k ∧ k ≤ n ∧ EndOf (ed k) x) (hu : u < x) : v ≤ x := by
  obtain ⟨k, k1, k2, rfl | rfl⟩ := h
  · exact (hv.left k k1 k2).resolve_left (not_le.2 hu)
  · exact (hv.right k k1 k2).resolve_left (not_le.2 hu)

theorem SInv.events_nil {gs : List (Gap K)} {sw : Sweep K} (h : SInv n ed top u gs sw) :
    sw.events = [] ↔ ∀ x, (∃ k, 1 ≤ k ∧ k ≤ n ∧ EndOf (ed k) x) → x ≤ u := by
  constructor
  · rintro e x ⟨k, k1, k2, hx⟩
    by_contra hlt
    rw [not_le] at hlt
    rcases hx with rfl | rfl
    · have := (h.mem (evL ed k)).2 ⟨⟨k, k1, k2, .inl rfl⟩, hlt⟩
      rw [e] at this; simp at this
    · have := (h.mem (evR ed k)).2 ⟨⟨k, k1, k2, .inr rfl⟩, hlt⟩
      rw [e] at this; simp at this
  · intro hx
    rw [List.eq_nil_iff_forall_not_mem]
    intro e he
    obtain ⟨⟨k, k1, k2, rfl | rfl⟩, hlt⟩ := (h.mem e).1 he
    · exact absurd hlt (not_lt.2 (hx _ ⟨k, k1, k2, .inl rfl⟩))
    · exact absurd hlt (not_lt.2 (hx _ ⟨k, k1, k2, .inr rfl⟩))

/-- **Two runs over the same edges do the same to the chains.** -/
theorem run_same (E : Edges n ed top) (E' : Edges n' ed' top') (h : Ren n ed n' ed' σ) (dbg : Bool) :
    ∀ (fuel fuel' : Nat) {u : Pt K} {gs : List (Gap K)} {sw sw' : Sweep K} (chains : List (Chain K)),
    sw.events.length < fuel → sw'.events.length < fuel' → GInv n ed top u gs → SInv n ed top u gs sw →
    GInv n' ed' top' u (gs.map (Gap.re σ)) → SInv n' ed' top' u (gs.map (Gap.re σ)) sw' →
    run dbg fuel sw chains = run dbg fuel' sw' chains
  | 0, _, _, _, _, _, _, h, _, _, _, _, _ => absurd h (Nat.not_lt_zero _)
  | _ + 1, 0, _, _, _, _, _, _, h, _, _, _, _ => absurd h (Nat.not_lt_zero _)
  | fuel + 1, fuel' + 1, u, gs, sw, sw', chains, hf, hf', hI, hS, hI', hS' => by
    have hnil : sw.events = [] ↔ sw'.events = [] := by
      rw [hS.events_nil, hS'.events_nil]
      exact forall_congr' fun x => by rw [h.end_of]
    by_cases hne : sw.events = []
    · rw [run, run, (hS.last E hI hne).1, (hS'.last E' hI' (hnil.1 hne)).1]
    · obtain ⟨v, g1, s1, ev, hv, a1, a2, a3, a4, a5, a6⟩ := hS.step E hI hne
      obtain ⟨v', g1', s1', ev', hv', b1, b2, b3, b4, b5, b6⟩ := hS'.step E' hI' (fun e => hne (hnil.2 e))
      have evv : v = v' := le_antisymm (hv.le_end (h.end_of.2 hv'.vertex) hv'.lt) (hv'.le_end (h.end_of.1 hv.vertex) hv.lt)
      subst evv
      have hr : ∀ k ∈ flat gs, 1 ≤ k ∧ k ≤ n := fun k hk => ⟨((hI.act.mem k).1 hk).1, ((hI.act.mem k).1 hk).2.1⟩
      obtain ⟨c1, c2, c3⟩ := LStep.determ E' hI' rfl (h.step (h.labels E E') hr a5) b5 (by rw [flat_re]; exact h.act a1.act) b1.act
      subst c3
      rw [run, run, a3, b3]
      simp only
      rw [applyEvent_core dbg chains (a4.trans b4.symm) c1 c2]
      cases applyEvent dbg chains ev' with
      | none => rfl
      | some ch => exact run_same E E' h dbg fuel fuel' ch (by omega) (by omega) a1 a2 b1 b2

/-- Before the first vertex, the position does not matter. -/
theorem SInv.rebase {sw : Sweep K} {u' : Pt K} (hu : ∀ k, 1 ≤ k → k ≤ n → u < (ed k).1) (hu' : ∀ k, 1 ≤ k → k ≤ n → u' < (ed k).1)
    (E : Edges n ed top) (h : SInv n ed top u [] sw) : SInv n ed top u' [] sw where
  segs := by
    obtain ⟨c, hp, e, hH⟩ := h.segs
    exact ⟨c, hp, e, hH.lab, fun k k1 k2 ht _ => hH.fresh k k1 k2 ht (hu k k1 k2), by simp⟩
  active := h.active
  nodup := h.nodup
  mem := by
    intro e
    rw [h.mem]
    refine and_congr_right ?_
    rintro ⟨k, k1, k2, rfl | rfl⟩
    · exact ⟨fun _ => hu' k k1 k2, fun _ => hu k k1 k2⟩
    · exact ⟨fun _ => (hu' k k1 k2).trans (E.lt k k1 k2), fun _ => (hu k k1 k2).trans (E.lt k k1 k2)⟩
  sorted := h.sorted

end GeoCrossings.Monotone
