import Verif.Lemmas.MonoParity
import Verif.Lemmas.MonoChain
import Verif.Spec.ValidPolygon
import Verif.Props.Rings

/-!
# The edges of a valid polygon satisfy `Edges`
-/
set_option linter.unusedSectionVars false
namespace GeoCrossings.Monotone
open Spec

variable {K : Type} [Field K] [LinearOrder K] [IsStrictOrderedRing K]

/-! ## Lists -/

theorem es_cons (a b : Pt K) (l : List (Pt K)) : es (a :: b :: l) = (a, b) :: es (b :: l) := rfl

theorem es_fst : ∀ l : List (Pt K), (es l).map Prod.fst = l.dropLast
  | [] => rfl
  | [_] => rfl
  | a :: b :: l => by rw [es_cons, List.map_cons, es_fst (b :: l)]; rfl

theorem es_snd : ∀ l : List (Pt K), (es l).map Prod.snd = l.tail
  | [] => rfl
  | [_] => rfl
  | a :: b :: l => by rw [es_cons, List.map_cons, es_snd (b :: l)]; rfl

theorem es_append (l : List (Pt K)) (a : Pt K) : ∀ (k : List (Pt K)), es (k ++ a :: l) = es (k ++ [a]) ++ es (a :: l)
  | [] => by simp [es]
  | [c] => by simp only [List.cons_append, List.nil_append]; rw [es_cons, es_cons]; rfl
  | c :: c' :: k => by
    have := es_append l a (c' :: k)
    simp only [List.cons_append] at this ⊢
    rw [es_cons, es_cons, this]
    rfl

theorem ring_shape {r : List (Pt K)} (h : r.head? = r.getLast?) (h4 : 4 ≤ r.length) : ∃ a m, r = (a :: m) ++ [a] ∧ 2 ≤ m.length := by
  cases r with
  | nil => simp at h4
  | cons a t =>
    rcases List.eq_nil_or_concat t with rfl | ⟨m, c, rfl⟩
    · simp at h4
    · rw [List.concat_eq_append] at h h4 ⊢
      have : c = a := by
        have : (a :: (m ++ [c])).getLast? = some c := by rw [show a :: (m ++ [c]) = (a :: m) ++ [c] from rfl, List.getLast?_concat]
        rw [this] at h
        simpa using h.symm
      subst this
      exact ⟨c, m, rfl, by simp at h4; omega⟩

theorem es_perm {r : List (Pt K)} (h : r.head? = r.getLast?) (h4 : 4 ≤ r.length) : ((es r).map Prod.snd).Perm ((es r).map Prod.fst) := by
  obtain ⟨a, m, rfl, -⟩ := ring_shape h h4
  rw [es_fst, es_snd, List.dropLast_concat, List.cons_append, List.tail_cons]
  exact List.perm_append_comm

theorem es_ne' : ∀ {l : List (Pt K)}, l.Nodup → ∀ e ∈ es l, e.1 ≠ e.2
  | [], _, e, he => by simp [es] at he
  | [_], _, e, he => by simp [es] at he
  | a :: b :: l, h, e, he => by
    rw [es_cons, List.mem_cons] at he
    rcases he with rfl | he
    · exact fun hab => (List.nodup_cons.1 h).1 (by simp at hab; simp [hab])
    · exact es_ne' (List.nodup_cons.1 h).2 e he

theorem es_ne {r : List (Pt K)} (h : r.head? = r.getLast?) (h4 : 4 ≤ r.length) (hn : r.dropLast.Nodup) {e : Sg K} (he : e ∈ es r) : e.1 ≠ e.2 := by
  obtain ⟨a, m, rfl, hm⟩ := ring_shape h h4
  rw [List.dropLast_concat] at hn
  obtain ⟨c, hc⟩ : ∃ c, (a :: m).getLast? = some c := ⟨_, List.getLast?_eq_some_getLast (by simp)⟩
  rw [es_snoc hc, List.mem_append] at he
  rcases he with he | he
  · exact es_ne' hn e he
  · simp only [List.mem_singleton] at he
    subst he
    cases m with
    | nil => simp at hm
    | cons b m =>
      rw [List.getLast?_cons_cons] at hc
      intro hca
      simp only at hca
      exact (List.nodup_cons.1 hn).1 (hca ▸ List.mem_of_getLast? hc)

/-- The edges of a ring around one of its vertices. -/
theorem es_around {l pre post m : List (Pt K)} {a h next prev : Pt K} (hl : l = pre ++ a :: post) (hh : l.head? = some h)
    (hc : post ++ pre = next :: (m ++ [prev])) : (a, next) ∈ es (l ++ [h]) ∧ (prev, a) ∈ es (l ++ [h]) := by
  subst hl
  constructor
  · rw [List.append_assoc, List.cons_append, es_append, List.mem_append]
    right
    cases post with
    | nil =>
      simp only [List.nil_append] at hc
      subst hc
      simp at hh
      subst hh
      simp [es]
    | cons p post =>
      simp only [List.cons_append, List.cons.injEq] at hc
      rw [List.cons_append, es_cons, hc.1]
      simp
  · rcases List.eq_nil_or_concat pre with rfl | ⟨pre, c, rfl⟩
    · simp only [List.append_nil] at hc
      subst hc
      simp only [List.nil_append, List.head?_cons, Option.some.injEq] at hh
      subst hh
      have : a :: next :: (m ++ [prev]) ++ [a] = (a :: next :: m) ++ [prev, a] := by simp
      rw [List.nil_append, this, es_pre]
      simp
    · have : c = prev := by
        have := congrArg List.getLast? hc
        rw [List.concat_eq_append, ← List.append_assoc] at this
        have h2 : (next :: (m ++ [prev])).getLast? = some prev := by rw [show next :: (m ++ [prev]) = (next :: m) ++ [prev] from rfl, List.getLast?_concat]
        rw [h2] at this
        simpa using this
      subst this
      rw [List.concat_eq_append]
      have : pre ++ [c] ++ a :: post ++ [h] = (pre ++ [c]) ++ a :: (post ++ [h]) := by simp
      rw [this, es_append, List.mem_append]
      left
      have : pre ++ [c] ++ [a] = pre ++ [c, a] := by simp
      rw [this, es_pre]
      simp

/-! ## Rings with the winding of the interior -/

/-- The edge from its left to its right end — segment.rs:89-96. -/
def norm (e : Sg K) : Sg K := if e.2 < e.1 then (e.2, e.1) else e

/-- The interior is below. -/
def lab (x : Sg K × Winding) : Bool := decide ((if x.1.2 < x.1.1 then x.2.inverse else x.2) = .clockwise)

/-- The directed edges of rings. -/
def dir (R : List (List (Pt K) × Winding)) : List (Sg K × Winding) := R.flatMap fun r => (es r.1).map fun e => (e, r.2)

structure RingsOk (R : List (List (Pt K) × Winding)) : Prop where
  closed : ∀ r ∈ R, r.1.head? = r.1.getLast? ∧ 4 ≤ r.1.length
  distinct : (R.flatMap fun r => r.1.dropLast).Nodup
  meet : ∀ x ∈ dir R, ∀ y ∈ dir R, x.1 ≠ y.1 → Meet x.1 y.1

theorem mem_dir {R : List (List (Pt K) × Winding)} {x : Sg K × Winding} : x ∈ dir R ↔ ∃ r ∈ R, x.1 ∈ es r.1 ∧ x.2 = r.2 := by
  simp only [dir, List.mem_flatMap, List.mem_map]
  constructor
  · rintro ⟨r, hr, e, he, rfl⟩; exact ⟨r, hr, he, rfl⟩
  · rintro ⟨r, hr, he, h⟩; exact ⟨r, hr, x.1, he, by rw [← h]⟩

variable {R : List (List (Pt K) × Winding)}

theorem dir_fst (R : List (List (Pt K) × Winding)) : (dir R).map (fun x => x.1.1) = R.flatMap fun r => r.1.dropLast := by
  simp only [dir, List.map_flatMap, List.map_map]
  refine List.flatMap_congr fun r _ => ?_
  rw [← es_fst]
  exact List.map_congr_left fun _ _ => rfl

theorem RingsOk.perm (h : RingsOk R) : ((dir R).map fun x => x.1.2).Perm ((dir R).map fun x => x.1.1) := by
  have : ∀ R : List (List (Pt K) × Winding), (∀ r ∈ R, r.1.head? = r.1.getLast? ∧ 4 ≤ r.1.length) →
      ((dir R).map fun x => x.1.2).Perm ((dir R).map fun x => x.1.1) := by
    intro R
    induction R with
    | nil => intro _; exact List.Perm.refl _
    | cons r R ih =>
      intro hc
      have h1 := es_perm (hc r (by simp)).1 (hc r (by simp)).2
      have h2 := ih fun r' hr' => hc r' (by simp [hr'])
      simp only [dir, List.flatMap_cons, List.map_append, List.map_map] at h2 ⊢
      exact h1.append h2
  exact this R h.closed

theorem RingsOk.start (h : RingsOk R) {x y : Sg K × Winding} (hx : x ∈ dir R) (hy : y ∈ dir R) (e : x.1.1 = y.1.1) : x = y := by
  have hn : ((dir R).map fun x => x.1.1).Nodup := by rw [dir_fst]; exact h.distinct
  exact List.inj_on_of_nodup_map hn hx hy e

theorem RingsOk.stop (h : RingsOk R) {x y : Sg K × Winding} (hx : x ∈ dir R) (hy : y ∈ dir R) (e : x.1.2 = y.1.2) : x = y := by
  have hn : ((dir R).map fun x => x.1.2).Nodup := by rw [h.perm.nodup_iff, dir_fst]; exact h.distinct
  exact List.inj_on_of_nodup_map hn hx hy e

theorem RingsOk.nodup (h : RingsOk R) : (dir R).Nodup := by
  have hn : ((dir R).map fun x => x.1.1).Nodup := by rw [dir_fst]; exact h.distinct
  exact hn.of_map _

theorem RingsOk.next (h : RingsOk R) {x : Sg K × Winding} (hx : x ∈ dir R) : ∃ y ∈ dir R, y.1.1 = x.1.2 ∧ y.2 = x.2 := by
  obtain ⟨r, hr, he, hw⟩ := mem_dir.1 hx
  have h1 := es_perm (h.closed r hr).1 (h.closed r hr).2
  obtain ⟨e, he', h2⟩ := List.mem_map.1 (h1.mem_iff.1 (List.mem_map_of_mem (f := Prod.snd) he))
  exact ⟨(e, r.2), mem_dir.2 ⟨r, hr, he', rfl⟩, h2, hw.symm⟩

theorem RingsOk.prev (h : RingsOk R) {x : Sg K × Winding} (hx : x ∈ dir R) : ∃ y ∈ dir R, y.1.2 = x.1.1 ∧ y.2 = x.2 := by
  obtain ⟨r, hr, he, hw⟩ := mem_dir.1 hx
  have h1 := es_perm (h.closed r hr).1 (h.closed r hr).2
  obtain ⟨e, he', h2⟩ := List.mem_map.1 (h1.mem_iff.2 (List.mem_map_of_mem (f := Prod.fst) he))
  exact ⟨(e, r.2), mem_dir.2 ⟨r, hr, he', rfl⟩, h2, hw.symm⟩

theorem RingsOk.ne (h : RingsOk R) {x : Sg K × Winding} (hx : x ∈ dir R) : x.1.1 ≠ x.1.2 := by
  obtain ⟨r, hr, he, hw⟩ := mem_dir.1 hx
  refine es_ne (h.closed r hr).1 (h.closed r hr).2 ?_ he
  have := h.distinct
  rw [List.nodup_flatMap] at this
  exact this.1 r hr

theorem norm_lt {e : Sg K} (h : e.1 ≠ e.2) : (norm e).1 < (norm e).2 := by
  unfold norm
  split_ifs with h'
  · exact h'
  · exact lt_of_le_of_ne (not_lt.1 h') h

theorem endOf_norm (e : Sg K) (v : Pt K) : EndOf (norm e) v ↔ v = e.1 ∨ v = e.2 := by
  unfold norm EndOf
  split_ifs
  · exact or_comm
  · exact Iff.rfl

theorem onSeg_swap {a b x : Pt K} (h : OnSeg a b x) : OnSeg b a x := by
  obtain ⟨t, t0, t1, tx, ty⟩ := h
  exact ⟨1 - t, by linarith, by linarith, by rw [tx]; ring, by rw [ty]; ring⟩

theorem onSeg_norm (e : Sg K) (v : Pt K) : OnSeg (norm e).1 (norm e).2 v ↔ OnSeg e.1 e.2 v := by
  unfold norm
  split_ifs
  · exact ⟨onSeg_swap, onSeg_swap⟩
  · exact Iff.rfl

theorem Meet.norm {e f : Sg K} (h : Meet e f) : Meet (norm e) (norm f) := by
  intro x h1 h2
  rw [onSeg_norm] at h1 h2
  rw [endOf_norm, endOf_norm]
  exact h x h1 h2

theorem exists_mid {g : Sg K} (h : g.1 ≠ g.2) : ∃ x, OnSeg g.1 g.2 x ∧ ¬ EndOf g x := by
  refine ⟨⟨(g.1.x + g.2.x) / 2, (g.1.y + g.2.y) / 2⟩, ⟨1 / 2, by norm_num, by norm_num, by simp; ring, by simp; ring⟩, ?_⟩
  rintro (e2 | e2)
  all_goals
    have ex := congrArg Pt.x e2
    have ey := congrArg Pt.y e2
    simp only at ex ey
    refine h ?_
    have h1 : g.1.x = g.2.x := by linarith
    have h2 : g.1.y = g.2.y := by linarith
    cases h3 : g.1; cases h4 : g.2
    simp_all

/-- The edges from left to right. -/
def und (R : List (List (Pt K) × Winding)) : List (Sg K) := (dir R).map fun x => norm x.1

theorem RingsOk.norm_inj (h : RingsOk R) {x y : Sg K × Winding} (hx : x ∈ dir R) (hy : y ∈ dir R) (e : norm x.1 = norm y.1) : x = y := by
  by_contra hne
  have h1 : x.1 ≠ y.1 := fun h' => hne (h.start hx hy (by rw [h']))
  obtain ⟨m, m1, m2⟩ := exists_mid (h.ne hx)
  refine m2 (h.meet x hx y hy h1 m m1 ?_).1
  rw [← onSeg_norm, ← e, onSeg_norm]
  exact m1

theorem RingsOk.und_nodup (h : RingsOk R) : (und R).Nodup :=
  h.nodup.map_on fun _ hx _ hy e => h.norm_inj hx hy e

theorem RingsOk.plane (h : RingsOk R) : Plane (und R) where
  lt := by
    intro e he
    obtain ⟨x, hx, rfl⟩ := List.mem_map.1 he
    exact norm_lt (h.ne hx)
  meet := by
    intro e he f hf hne
    obtain ⟨x, hx, rfl⟩ := List.mem_map.1 he
    obtain ⟨y, hy, rfl⟩ := List.mem_map.1 hf
    exact (h.meet x hx y hy fun h' => hne (by rw [h'])).norm
  even := by
    intro P _
    have h1 : (und R).countP (fun e => P e.1) + (und R).countP (fun e => P e.2) =
        ((dir R).map fun x => x.1.1).countP P + ((dir R).map fun x => x.1.2).countP P := by
      unfold und
      generalize dir R = l
      induction l with
      | nil => rfl
      | cons x l ih =>
        simp only [List.map_cons, List.countP_cons] at ih ⊢
        have : ((if decide (P (norm x.1).1) = true then 1 else 0) + if decide (P (norm x.1).2) = true then 1 else 0) =
            (if decide (P x.1.1) = true then 1 else 0) + if decide (P x.1.2) = true then 1 else 0 := by
          unfold norm
          split_ifs <;> rfl
        omega
    rw [h1, h.perm.countP_eq]
    exact ⟨_, rfl⟩

/-- The label of an edge is what the number of edges below it says. -/
def Good (R : List (List (Pt K) × Winding)) (x : Sg K × Winding) : Prop := lab x = false ↔ Even (lowL (und R) (norm x.1))

theorem lab_fwd {x : Sg K × Winding} (h : x.1.1 < x.1.2) : lab x = decide (x.2 = .clockwise) := by
  unfold lab; rw [if_neg (_root_.lt_asymm h)]

theorem lab_bwd {x : Sg K × Winding} (h : x.1.2 < x.1.1) : lab x = decide (x.2.inverse = .clockwise) := by
  unfold lab; rw [if_pos h]

theorem inverse_cw (w : Winding) : decide (w.inverse = .clockwise) = !decide (w = .clockwise) := by cases w <;> rfl

theorem norm_fwd {e : Sg K} (h : e.1 < e.2) : norm e = e := by unfold norm; rw [if_neg (_root_.lt_asymm h)]
theorem norm_bwd {e : Sg K} (h : e.2 < e.1) : norm e = (e.2, e.1) := by unfold norm; rw [if_pos h]

theorem RingsOk.others (h : RingsOk R) {x y : Sg K × Winding} (hx : x ∈ dir R) (hy : y ∈ dir R) (e : y.1.1 = x.1.2) :
    ∀ g ∈ und R, EndOf g x.1.2 → g = norm x.1 ∨ g = norm y.1 := by
  intro g hg hv
  obtain ⟨z, hz, rfl⟩ := List.mem_map.1 hg
  rcases (endOf_norm _ _).1 hv with hv | hv
  · right; rw [h.start hz hy (hv.symm.trans e.symm)]
  · left; rw [h.stop hz hx hv.symm]

theorem mem_und {x : Sg K × Winding} (hx : x ∈ dir R) : norm x.1 ∈ und R := List.mem_map_of_mem hx

theorem RingsOk.loop (h : RingsOk R) {x : Sg K × Winding} (hx : x ∈ dir R) {y : Sg K × Winding} (_ : y ∈ dir R) (e : y.1.1 = x.1.2) : x ≠ y :=
  fun hxy => h.ne hx (by rw [← e, hxy])

theorem RingsOk.good_next (h : RingsOk R) {x y : Sg K × Winding} (hx : x ∈ dir R) (hy : y ∈ dir R) (e : y.1.1 = x.1.2) (hw : y.2 = x.2) :
    Good R x ↔ Good R y := by
  have P := h.plane
  have nd := h.und_nodup
  have ax := Nat.even_add.1 (P.along (mem_und hx))
  have ay := Nat.even_add.1 (P.along (mem_und hy))
  have ho := h.others hx hy e
  have hne : norm x.1 ≠ norm y.1 := fun h' => h.loop hx hy e (h.norm_inj hx hy h')
  unfold Good
  rcases lt_or_gt_of_ne (h.ne hx) with dx | dx <;> rcases lt_or_gt_of_ne (h.ne hy) with dy | dy
  · rw [lab_fwd dx, lab_fwd dy, hw, ax]
    have := P.at_rl (mem_und hx) (mem_und hy) (by rw [norm_fwd dx, norm_fwd dy, e]) (by rw [norm_fwd dx] at ho ⊢; exact ho)
    rw [this]
  · have := P.at_rr nd (mem_und hx) (mem_und hy) hne (by rw [norm_fwd dx, norm_bwd dy]; exact e.symm) (by rw [norm_fwd dx] at ho ⊢; exact ho)
    rw [lab_fwd dx, lab_bwd dy, hw, inverse_cw, ax, ay]
    have hodd : ¬ Even (lowR (und R) (norm x.1) + lowR (und R) (norm y.1)) := by rw [this, Nat.not_even_iff_odd]; exact ⟨_, rfl⟩
    rw [Nat.even_add] at hodd
    by_cases c : x.2 = .clockwise <;> simp [c] <;> rw [← Nat.not_even_iff_odd] <;> tauto
  · have := P.at_ll nd (mem_und hx) (mem_und hy) hne (by rw [norm_bwd dx, norm_fwd dy]; exact e.symm) (by rw [norm_bwd dx] at ho ⊢; exact ho)
    rw [lab_bwd dx, lab_fwd dy, hw, inverse_cw]
    have hodd : ¬ Even (lowL (und R) (norm x.1) + lowL (und R) (norm y.1)) := by rw [this, Nat.not_even_iff_odd]; exact ⟨_, rfl⟩
    rw [Nat.even_add] at hodd
    by_cases c : x.2 = .clockwise <;> simp [c] <;> rw [← Nat.not_even_iff_odd] <;> tauto
  · rw [lab_bwd dx, lab_bwd dy, hw, ay]
    have := P.at_rl (mem_und hy) (mem_und hx) (by rw [norm_bwd dx, norm_bwd dy]; exact e) (by
      intro g hg hv
      rw [norm_bwd dy] at hv
      simp only at hv
      rw [e] at hv
      exact (ho g hg hv).symm)
    rw [this]

theorem es_all_iff {G : Sg K → Prop} : ∀ {l : List (Pt K)}, (∀ a b c : Pt K, (a, b) ∈ es l → (b, c) ∈ es l → (G (a, b) ↔ G (b, c))) →
    ∀ e ∈ es l, ∀ e' ∈ es l, G e → G e'
  | [], _, e, he, _, _, _ => by simp [es] at he
  | [_], _, e, he, _, _, _ => by simp [es] at he
  | [a, b], _, e, he, e', he', hg => by
    simp [es] at he he'
    rw [he', ← he]; exact hg
  | a :: b :: c :: l, h, e, he, e', he', hg => by
    have ih := es_all_iff (G := G) (l := b :: c :: l) fun x y z h1 h2 => h x y z (by rw [es_cons]; simp [h1]) (by rw [es_cons]; simp [h2])
    have h0 : G (a, b) ↔ G (b, c) := h a b c (by simp [es]) (by simp [es])
    have hbc : (b, c) ∈ es (b :: c :: l) := by simp [es]
    rw [es_cons, List.mem_cons] at he he'
    have h1 : G (b, c) := by
      rcases he with rfl | he
      · exact h0.1 hg
      · exact ih e he _ hbc hg
    rcases he' with rfl | he'
    · exact h0.2 h1
    · exact ih _ hbc e' he' h1

theorem RingsOk.good (h : RingsOk R) (hb : ∀ r ∈ R, ∃ e ∈ es r.1, Good R (e, r.2)) : ∀ x ∈ dir R, Good R x := by
  intro x hx
  obtain ⟨r, hr, he, hw⟩ := mem_dir.1 hx
  obtain ⟨e, he', hg⟩ := hb r hr
  have := es_all_iff (G := fun e => Good R (e, r.2)) (l := r.1) (fun a b c h1 h2 =>
    h.good_next (mem_dir.2 ⟨r, hr, h1, rfl⟩) (mem_dir.2 ⟨r, hr, h2, rfl⟩) rfl rfl) e he' x.1 he hg
  rw [← hw] at this
  exact this

/-! ## The numbered edges -/

def numEd (R : List (List (Pt K) × Winding)) (k : Nat) : Sg K := norm ((dir R).getD (k - 1) ((⟨0, 0⟩, ⟨0, 0⟩), .clockwise)).1
def numTop (R : List (List (Pt K) × Winding)) (k : Nat) : Bool := lab ((dir R).getD (k - 1) ((⟨0, 0⟩, ⟨0, 0⟩), .clockwise))

theorem num_mem {k : Nat} (h1 : 1 ≤ k) (h2 : k ≤ (dir R).length) : ∃ x ∈ dir R, (dir R)[k - 1]? = some x ∧ numEd R k = norm x.1 ∧ numTop R k = lab x := by
  have hk : k - 1 < (dir R).length := by omega
  refine ⟨(dir R)[k - 1], List.getElem_mem hk, List.getElem?_eq_getElem hk, ?_, ?_⟩
  · simp [numEd, List.getD, List.getElem?_eq_getElem hk]
  · simp [numTop, List.getD, List.getElem?_eq_getElem hk]

theorem mem_num {x : Sg K × Winding} (hx : x ∈ dir R) : ∃ k, 1 ≤ k ∧ k ≤ (dir R).length ∧ (dir R)[k - 1]? = some x ∧ numEd R k = norm x.1 ∧ numTop R k = lab x := by
  obtain ⟨i, hi, rfl⟩ := List.mem_iff_getElem.1 hx
  refine ⟨i + 1, by omega, by omega, ?_, ?_, ?_⟩
  · simp [List.getElem?_eq_getElem hi]
  · simp [numEd, List.getD, List.getElem?_eq_getElem hi]
  · simp [numTop, List.getD, List.getElem?_eq_getElem hi]

theorem und_eq (R : List (List (Pt K) × Winding)) : und R = (List.range' 1 (dir R).length).map (numEd R) := by
  unfold und
  refine List.ext_getElem (by simp) fun i h1 h2 => ?_
  simp only [List.length_map] at h1
  simp [numEd, List.getD, List.getElem?_eq_getElem h1]

theorem RingsOk.edges (h : RingsOk R) (hg : ∀ x ∈ dir R, Good R x) : Edges (dir R).length (numEd R) (numTop R) where
  lt := by
    intro k k1 k2
    obtain ⟨x, hx, -, e, -⟩ := num_mem k1 k2
    rw [e]; exact norm_lt (h.ne hx)
  meet := by
    intro i j i1 i2 j1 j2 hij
    obtain ⟨x, hx, gx, e, -⟩ := num_mem i1 i2
    obtain ⟨y, hy, gy, e', -⟩ := num_mem j1 j2
    rw [e, e']
    refine (h.meet x hx y hy fun h' => hij ?_).norm
    have : x = y := h.start hx hy (by rw [h'])
    subst this
    have := (List.getElem?_inj (by omega) h.nodup).1 (gx.trans gy.symm)
    omega
  deg := by
    intro k k1 k2 v hv
    obtain ⟨x, hx, gx, e, -⟩ := num_mem k1 k2
    rw [e, endOf_norm] at hv
    obtain ⟨y, hy, hyv, hyo, hxy⟩ : ∃ y ∈ dir R, EndOf (norm y.1) v ∧ (∀ z ∈ dir R, EndOf (norm z.1) v → z = x ∨ z = y) ∧ x ≠ y := by
      rcases hv with hv | hv
      · obtain ⟨y, hy, h1, -⟩ := h.prev hx
        refine ⟨y, hy, (endOf_norm _ _).2 (.inr (hv.trans h1.symm)), fun z hz hzv => ?_, (h.loop hy hx h1.symm).symm⟩
        rcases (endOf_norm _ _).1 hzv with hz' | hz'
        · exact .inl (h.start hz hx (hz'.symm.trans hv))
        · exact .inr (h.stop hz hy (hz'.symm.trans (hv.trans h1.symm)))
      · obtain ⟨y, hy, h1, -⟩ := h.next hx
        refine ⟨y, hy, (endOf_norm _ _).2 (.inl (hv.trans h1.symm)), fun z hz hzv => ?_, h.loop hx hy h1⟩
        rcases (endOf_norm _ _).1 hzv with hz' | hz'
        · exact .inr (h.start hz hy (hz'.symm.trans (hv.trans h1.symm)))
        · exact .inl (h.stop hz hx (hz'.symm.trans hv))
    obtain ⟨j, j1, j2, gy, ey, -⟩ := mem_num hy
    refine ⟨j, j1, j2, ?_, by rw [ey]; exact hyv, ?_⟩
    · rintro rfl
      rw [gx] at gy
      exact hxy (Option.some.inj gy)
    · intro i i1 i2 hi
      obtain ⟨z, hz, gz, ez, -⟩ := num_mem i1 i2
      rw [ez] at hi
      rcases hyo z hz hi with rfl | rfl
      · left
        have := (List.getElem?_inj (by omega) h.nodup).1 (gz.trans gx.symm)
        omega
      · right
        have := (List.getElem?_inj (by omega) h.nodup).1 (gz.trans gy.symm)
        omega
  ll := by
    intro i j i1 i2 j1 j2 hij hv
    obtain ⟨x, hx, gx, e, t⟩ := num_mem i1 i2
    obtain ⟨y, hy, gy, e', t'⟩ := num_mem j1 j2
    have hxy : x ≠ y := by
      rintro rfl
      have := (List.getElem?_inj (by omega) h.nodup).1 (gx.trans gy.symm)
      omega
    rw [e, e'] at hv
    rw [t, t']
    rcases lt_or_gt_of_ne (h.ne hx) with dx | dx <;> rcases lt_or_gt_of_ne (h.ne hy) with dy | dy
    · rw [norm_fwd dx, norm_fwd dy] at hv; exact absurd (h.start hx hy hv) hxy
    · rw [norm_fwd dx, norm_bwd dy] at hv
      obtain ⟨z, hz, h1, h2⟩ := h.next hy
      have := h.start hz hx (h1.trans hv.symm)
      subst this
      rw [lab_fwd dx, lab_bwd dy, inverse_cw, h2]
      cases decide (y.2 = .clockwise) <;> simp
    · rw [norm_bwd dx, norm_fwd dy] at hv
      obtain ⟨z, hz, h1, h2⟩ := h.next hx
      have := h.start hz hy (h1.trans hv)
      subst this
      rw [lab_bwd dx, lab_fwd dy, inverse_cw, h2]
      cases decide (x.2 = .clockwise) <;> simp
    · rw [norm_bwd dx, norm_bwd dy] at hv; exact absurd (h.stop hx hy hv) hxy
  rr := by
    intro i j i1 i2 j1 j2 hij hv
    obtain ⟨x, hx, gx, e, t⟩ := num_mem i1 i2
    obtain ⟨y, hy, gy, e', t'⟩ := num_mem j1 j2
    have hxy : x ≠ y := by
      rintro rfl
      have := (List.getElem?_inj (by omega) h.nodup).1 (gx.trans gy.symm)
      omega
    rw [e, e'] at hv
    rw [t, t']
    rcases lt_or_gt_of_ne (h.ne hx) with dx | dx <;> rcases lt_or_gt_of_ne (h.ne hy) with dy | dy
    · rw [norm_fwd dx, norm_fwd dy] at hv; exact absurd (h.stop hx hy hv) hxy
    · rw [norm_fwd dx, norm_bwd dy] at hv
      obtain ⟨z, hz, h1, h2⟩ := h.next hx
      have := h.start hz hy (h1.trans hv)
      subst this
      rw [lab_fwd dx, lab_bwd dy, inverse_cw, h2]
      cases decide (x.2 = .clockwise) <;> simp
    · rw [norm_bwd dx, norm_fwd dy] at hv
      obtain ⟨z, hz, h1, h2⟩ := h.next hy
      have := h.start hz hx (h1.trans hv.symm)
      subst this
      rw [lab_bwd dx, lab_fwd dy, inverse_cw, h2]
      cases decide (y.2 = .clockwise) <;> simp
    · rw [norm_bwd dx, norm_bwd dy] at hv; exact absurd (h.start hx hy hv) hxy
  rl := by
    intro i j i1 i2 j1 j2 hv
    obtain ⟨x, hx, gx, e, t⟩ := num_mem i1 i2
    obtain ⟨y, hy, gy, e', t'⟩ := num_mem j1 j2
    rw [e, e'] at hv
    rw [t, t']
    rcases lt_or_gt_of_ne (h.ne hx) with dx | dx <;> rcases lt_or_gt_of_ne (h.ne hy) with dy | dy
    · rw [norm_fwd dx, norm_fwd dy] at hv
      obtain ⟨z, hz, h1, h2⟩ := h.next hx
      have := h.start hz hy (h1.trans hv)
      subst this
      rw [lab_fwd dx, lab_fwd dy, h2]
    · rw [norm_fwd dx, norm_bwd dy] at hv
      have := h.stop hx hy hv
      subst this
      exact absurd dy (_root_.lt_asymm dx)
    · rw [norm_bwd dx, norm_fwd dy] at hv
      have := h.start hx hy hv
      subst this
      exact absurd dy (_root_.lt_asymm dx)
    · rw [norm_bwd dx, norm_bwd dy] at hv
      obtain ⟨z, hz, h1, h2⟩ := h.next hy
      have := h.start hz hx (h1.trans hv.symm)
      subst this
      rw [lab_bwd dx, lab_bwd dy, h2]
  par := by
    intro i j i1 i2 j1 j2 hv hd
    obtain ⟨x, hx, gx, e, t⟩ := num_mem i1 i2
    obtain ⟨y, hy, gy, e', t'⟩ := num_mem j1 j2
    have hb : (List.range' 1 (dir R).length).countP (fun k => Passes (numEd R i).1 (numEd R k)) = below (und R) (numEd R i).1 := by
      rw [below, und_eq, List.countP_map]
      rfl
    have hg' : lab x = false ↔ Even (lowL (und R) (norm x.1)) := hg x hx
    rw [hb, t, hg']
    have : lowL (und R) (norm x.1) = below (und R) (numEd R i).1 := by
      rw [e, lowL]
      have : (und R).countP (fun f => f.1 = (norm x.1).1 ∧ f.Lt (norm x.1)) = 0 := by
        rw [List.countP_eq_zero]
        intro f hf hc
        obtain ⟨h1, h2⟩ := of_decide_eq_true hc
        obtain ⟨z, hz, rfl⟩ := List.mem_map.1 hf
        rw [e, e'] at hv hd
        have hz' : z = x ∨ z = y := by
          have hxy : x ≠ y := by
            rintro rfl
            rw [det_right] at hd
            exact lt_irrefl _ hd
          have zx : EndOf (norm z.1) (norm x.1).1 := .inl h1.symm
          have yx : EndOf (norm y.1) (norm x.1).1 := .inl hv
          have xx : EndOf (norm x.1) (norm x.1).1 := .inl rfl
          rw [endOf_norm] at zx yx xx
          generalize (norm x.1).1 = v at *
          rcases zx with zx | zx
          · rcases xx with xx | xx
            · exact .inl (h.start hz hx (zx.symm.trans xx))
            · rcases yx with yx | yx
              · exact .inr (h.start hz hy (zx.symm.trans yx))
              · exact absurd (h.stop hx hy (xx.symm.trans yx)) hxy
          · rcases xx with xx | xx
            · rcases yx with yx | yx
              · exact absurd (h.start hx hy (xx.symm.trans yx)) hxy
              · exact .inr (h.stop hz hy (zx.symm.trans yx))
            · exact .inl (h.stop hz hx (zx.symm.trans xx))
        rcases hz' with rfl | rfl
        · exact Sg.lt_irrefl (norm_lt (h.ne hx)) h2
        · refine GeoCrossings.lt_asymm (norm_lt (h.ne hz)) (norm_lt (h.ne hx)) h2 ?_
          rw [lt_right_iff hv.le]
          right
          rw [← hv, det_left]
          exact ⟨rfl, hd⟩
      rw [this]; rfl
    rw [this]

end GeoCrossings.Monotone
