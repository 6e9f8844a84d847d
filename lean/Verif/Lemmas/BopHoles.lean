import Verif.Lemmas.BopVertex
import Verif.Lemmas.RingWinding
import Verif.Lemmas.BopFinish

/-! # Which rings of a run of `Op::sweep` are holes -/
set_option linter.unusedSectionVars false
namespace GeoCrossings
open Spec BoolOp Rings

variable {K : Type} [Field K] [LinearOrder K] [IsStrictOrderedRing K]

/-! ## The edges at a vertex are added in pairs of one that arrives and one that leaves -/

theorem Alt.ne {x y : Winding} {q : List Winding} : ∀ {p : List Winding} {b : Bool}, Alt b (p ++ x :: y :: q) → x ≠ y
  | [], b, h => by
    obtain ⟨h1, h2, -⟩ := h
    rw [h1, h2]; cases b <;> simp
  | _ :: p, _, h => Alt.ne (p := p) h.2

theorem atV_split (v : Pt K) : ∀ {em : List (LineOrPoint K × Winding)}, (∀ e ∈ em, e.1.first < e.1.second) →
    (em.Pairwise fun a b => a.1.second ≤ b.1.second) →
    atV em v = (em.filter fun e => e.1.second = v) ++ em.filter fun e => e.1.first = v
  | [], _, _ => rfl
  | e :: em, h1, h2 => by
    have ih := atV_split v (em := em) (fun e he => h1 e (by simp [he])) (List.pairwise_cons.1 h2).2
    unfold atV at ih ⊢
    have hlt := h1 e (by simp)
    rw [List.filter_cons, List.filter_cons, List.filter_cons, ih]
    by_cases k2 : e.1.second = v
    · have k1 : e.1.first ≠ v := fun k => hlt.ne (k.trans k2.symm)
      simp [k1, k2]
    · by_cases k1 : e.1.first = v
      · have : em.filter (fun e => decide (e.1.second = v)) = [] := by
          refine filter_nil' fun e' he' k => ?_
          have k3 := (List.pairwise_cons.1 h2).1 e' he'
          rw [of_decide_eq_true k] at k3
          rw [k1] at hlt
          exact absurd (hlt.trans_le k3) (lt_irrefl _)
        simp [k1, k2, this]
      · simp [k1, k2]

theorem VertexOk.paired {em : List (LineOrPoint K × Winding)} {v : Pt K} (h : VertexOk em v) (h1 : ∀ e ∈ em, e.1.first < e.1.second)
    (h2 : em.Pairwise fun a b => a.1.second ≤ b.1.second)
    (h3 : Even (em.countP (fun e => e.1.first = v) + em.countP (fun e => e.1.second = v)))
    (h4 : em.countP (fun e => e.1.first = v) ≤ 2) : PairedAt em v := by
  intro pre a b post hs hpre
  rw [atV_split v h1 h2] at hs
  obtain ⟨b0, S, s1, -, s3, s4, -⟩ := h
  have hst : ∀ e ∈ em.filter (fun e => decide (e.1.first = v)), e.1.first = v := fun e he => of_decide_eq_true (List.mem_filter.1 he).2
  have hen : ∀ e ∈ em.filter (fun e => decide (e.1.second = v)), e.1.first ≠ v := fun e he k =>
    (h1 e (List.mem_filter.1 he).1).ne (k.trans (of_decide_eq_true (List.mem_filter.1 he).2).symm)
  rw [List.countP_eq_length_filter, List.countP_eq_length_filter] at h3
  rw [List.countP_eq_length_filter] at h4
  generalize em.filter (fun e => decide (e.1.second = v)) = en at *
  generalize em.filter (fun e => decide (e.1.first = v)) = st at *
  rcases split_append hs with ⟨r', e1, e2⟩ | ⟨l', e1, e2⟩
  · cases r' with
    | nil =>
      rw [List.nil_append] at e2
      rw [e1, List.length_append] at h3
      have hl : st.length = 1 := by
        rw [← e2, List.length_cons] at h3 h4 ⊢
        simp only [List.length_cons, List.length_nil] at h3
        rw [Nat.even_iff] at h3 hpre
        omega
      have hpo : post = [] := by
        rw [← e2, List.length_cons] at hl
        exact List.length_eq_zero_iff.1 (by omega)
      subst hpo
      rw [← e2] at s1
      rw [List.perm_singleton.1 s1] at s3
      rw [e1, List.map_append, List.reverse_append] at s4
      have ka : a.1.first ≠ v := hen a (by rw [e1]; simp)
      have kb : b.1.first = v := hst b (by rw [← e2]; simp)
      unfold outgoing
      rw [if_neg ka, if_pos kb]
      have w1 : a.2 = if b0 = true then .clockwise else .counterClockwise := s4.1
      have w2 : b.2 = if b0 = true then .clockwise else .counterClockwise := s3.1
      rw [w1, w2]
      cases b0 <;> simp
    | cons b' r' =>
      rw [List.cons_append, List.cons_eq_cons] at e2
      obtain ⟨rfl, -⟩ := e2
      have ka : a.1.first ≠ v := hen a (by rw [e1]; simp)
      have kb : b.1.first ≠ v := hen b (by rw [e1]; simp)
      rw [e1] at s4
      have : (List.map (·.2) (pre ++ a :: b :: r')).reverse = (r'.map (·.2)).reverse ++ b.2 :: a.2 :: (pre.map (·.2)).reverse := by simp
      rw [this] at s4
      have := Alt.ne s4
      unfold outgoing
      rw [if_neg ka, if_neg kb]
      generalize a.2 = w1 at this ⊢; generalize b.2 = w2 at this ⊢
      cases w1 <;> cases w2 <;> simp_all
  · rw [e2] at h4
    simp only [List.length_append, List.length_cons] at h4
    have hl : l' = [] := List.length_eq_zero_iff.1 (by omega)
    have hpo : post = [] := List.length_eq_zero_iff.1 (by omega)
    subst hl; subst hpo
    rw [List.nil_append] at e2
    have ka : a.1.first = v := hst a (by rw [e2]; simp)
    have kb : b.1.first = v := hst b (by rw [e2]; simp)
    rw [e2] at s1
    have hS : S.length = 2 := by rw [s1.length_eq]; rfl
    have hw : a.2 ≠ b.2 := by
      match S, hS with
      | [x, y], _ =>
        have hxy : x.2 ≠ y.2 := Alt.ne (p := []) s3
        rcases perm_pair_or s1 with ⟨rfl, rfl⟩ | ⟨rfl, rfl⟩
        · exact hxy
        · exact hxy.symm
    unfold outgoing
    rw [if_pos ka, if_pos kb]
    generalize a.2 = w1 at hw ⊢; generalize b.2 = w2 at hw ⊢
    cases w1 <;> cases w2 <;> simp_all

theorem PairedAt.prefix {em em' : List (LineOrPoint K × Winding)} {v : Pt K} (h : PairedAt (em ++ em') v) : PairedAt em v := by
  intro pre a b post hs hp
  refine h pre a b (post ++ atV em' v) ?_ hp
  have : atV (em ++ em') v = atV em v ++ atV em' v := by unfold atV; rw [List.filter_append]
  rw [this, hs]; simp

theorem ofEdges_dinv {D : Pt K → Pt K → Prop} (em : List (LineOrPoint K × Winding)) (hne : ∀ e ∈ em, e.1.first ≠ e.1.second)
    (hD : ∀ e ∈ em, Dir D e.2 e.1.first e.1.second) (hp : ∀ v, PairedAt em v) {r : Rings K} (hr : ofEdges em = some r) : DInv D em r := by
  induction em using List.reverseRecOn generalizing r with
  | nil =>
    have : Rings.default = r := by simpa [ofEdges] using hr
    rw [← this]; exact .empty D
  | append_singleton em e ih =>
    obtain ⟨r0, h1, h2, -⟩ := ofEdges_inv em fun e he => hne e (by simp [he])
    have ih := ih (fun e he => hne e (by simp [he])) (fun e he => hD e (by simp [he])) (fun v => (hp v).prefix) h1
    refine DInv.addEdge h2 ih (hne e (by simp)) (hD e (by simp)) (fun v _ => hp v) ?_
    unfold ofEdges at h1 hr
    rw [List.foldlM_append, h1] at hr
    simpa using hr

theorem rawLoops_dir {em : List (LineOrPoint K × Winding)} (hne : ∀ e ∈ em, e.1.first ≠ e.1.second) (hp : ∀ v, PairedAt em v)
    {r : Rings K} (hr : ofEdges em = some r) {loops} (h : rawLoops r = some loops) : ∀ x ∈ loops, CycChain (Dir (dirOf em) x.1) x.2 := by
  obtain ⟨r', h1, H, -⟩ := ofEdges_inv em hne
  rw [hr] at h1; simp only [Option.some.injEq] at h1; subst h1
  have hd := ofEdges_dinv em hne (fun e he => dir_edge he) hp hr
  rw [rawLoops_eq] at h
  exact allLoops_dir H hd r.chains.length (le_refl _) (V := ∅) (by intro v hv; simp at hv) (Rel.refl _) h

/-! ## Holes -/

theorem cycChain_rotate {R : Pt K → Pt K → Prop} {pre post : List (Pt K)} {a : Pt K} (h : CycChain R (pre ++ a :: post)) :
    (a :: (post ++ pre) ++ [a]).IsChain R := by
  unfold CycChain at h
  cases pre with
  | nil => simpa using h
  | cons p pre =>
    have e : ((p :: pre) ++ a :: post) ++ ((p :: pre) ++ a :: post).head?.toList = (p :: pre) ++ (a :: post ++ [p]) := by simp
    rw [e] at h
    have h1 := h.right_of_append
    have h2 : ((p :: pre) ++ [a]).IsChain R := by
      have : (p :: pre) ++ (a :: post ++ [p]) = ((p :: pre) ++ [a]) ++ (post ++ [p]) := by simp
      rw [this] at h
      exact h.left_of_append
    have e2 : a :: (post ++ p :: pre) ++ [a] = (a :: post) ++ (p :: (pre ++ [a])) := by simp
    rw [e2]
    have h3 : ((a :: post) ++ [p]).IsChain R := by simpa using h1
    rw [List.isChain_append] at h3 ⊢
    refine ⟨h3.1, by simpa using h2, ?_⟩
    intro x hx y hy
    refine h3.2.2 x hx y ?_
    simpa using hy

/-- What is known of the edges that a run of `Op::sweep` adds. -/
structure Emitted (em : List (LineOrPoint K × Winding)) : Prop where
  lt : ∀ e ∈ em, e.1.first < e.1.second
  sorted : em.Pairwise fun a b => a.1.second ≤ b.1.second
  even : ∀ v, Even (em.countP (fun e => e.1.first = v) + em.countP (fun e => e.1.second = v))
  spread : em.Pairwise fun a b => a.1.first = b.1.first → det a.1.first a.1.second b.1.second ≠ 0
  vertex : ∀ v, VertexOk em v

/-- At a vertex at which two edges start, one of each winding: the lower one has the region below it iff there is one below the vertex. -/
theorem VertexOk.two {em : List (LineOrPoint K × Winding)} {v : Pt K} (h : VertexOk em v) (h4 : em.countP (fun e => e.1.first = v) ≤ 2)
    {e1 e2 : LineOrPoint K × Winding} (m1 : e1 ∈ em) (m2 : e2 ∈ em) (f1 : e1.1.first = v) (f2 : e2.1.first = v) (hw : e2.2 = e1.2.inverse) :
    det v e1.1.second e2.1.second ≠ 0 ∧
      (em.countP (edgeUnder v) % 2 = 1 ↔ e1.2 = if 0 < det v e1.1.second e2.1.second then .clockwise else .counterClockwise) := by
  obtain ⟨b, S, s1, s2, s3, -, s5⟩ := h
  have hb := s5 ⟨e1, m1, .inl f1⟩
  have hne : e1 ≠ e2 := by
    rintro rfl
    generalize e1.2 = w at hw
    cases w <;> simp [Winding.inverse] at hw
  have k1 : e1 ∈ S := s1.mem_iff.2 (List.mem_filter.2 ⟨m1, decide_eq_true f1⟩)
  have k2 : e2 ∈ S := s1.mem_iff.2 (List.mem_filter.2 ⟨m2, decide_eq_true f2⟩)
  have hl : S.length ≤ 2 := by rw [s1.length_eq, ← List.countP_eq_length_filter]; exact h4
  rw [← hb]
  match S, hl with
  | [], _ => simp at k1
  | [x], _ =>
    simp only [List.mem_singleton] at k1 k2
    exact absurd (k1.trans k2.symm) hne
  | [x, y], _ =>
    simp only [List.pairwise_cons, List.mem_singleton, forall_eq] at s2
    have hd := s2.1
    have hx : x.2 = if b = true then .clockwise else .counterClockwise := s3.1
    simp only [List.mem_cons, List.not_mem_nil, or_false] at k1 k2
    rcases k1 with rfl | rfl <;> rcases k2 with rfl | rfl
    · exact absurd rfl hne
    · refine ⟨hd.ne', ?_⟩
      rw [if_pos hd, hx]; cases b <;> simp
    · have hd' : det v e1.1.second e2.1.second < 0 := by
        have : det v e1.1.second e2.1.second = - det v e2.1.second e1.1.second := by unfold det; ring
        linarith
      refine ⟨hd'.ne, ?_⟩
      rw [if_neg (not_lt.2 hd'.le)]
      rw [hw] at hx
      generalize e1.2 = w at hx
      cases b <;> cases w <;> simp_all [Winding.inverse]
    · exact absurd rfl hne

theorem dirOf_start {em : List (LineOrPoint K × Winding)} (hlt : ∀ e ∈ em, e.1.first < e.1.second) {w : Winding} {a b : Pt K} (hab : a < b)
    (h : Dir (dirOf em) w a b) : ∃ e ∈ em, e.1.first = a ∧ e.1.second = b ∧ e.2 = w := by
  cases w with
  | counterClockwise =>
    obtain ⟨e, he, ⟨k1, k2, k3⟩ | ⟨k1, k2, k3⟩⟩ := h
    · exact ⟨e, he, k2, k3, k1⟩
    · have := hlt e he
      rw [k2, k3] at this
      exact absurd this (_root_.lt_asymm hab)
  | clockwise =>
    obtain ⟨e, he, ⟨k1, k2, k3⟩ | ⟨k1, k2, k3⟩⟩ := h
    · have := hlt e he
      rw [k2, k3] at this
      exact absurd this (_root_.lt_asymm hab)
    · exact ⟨e, he, k2, k3, k1⟩

theorem isChain_zip {α : Type _} {R : α → α → Prop} : ∀ {l : List α}, l.IsChain R → ∀ x ∈ l.zip l.tail, R x.1 x.2
  | [], _, x, hx => by simp at hx
  | [_], _, x, hx => by simp at hx
  | a :: b :: l, h, x, hx => by
    rw [List.isChain_cons_cons] at h
    simp only [List.tail_cons, List.zip_cons_cons, List.mem_cons] at hx
    rcases hx with rfl | hx
    · exact h.1
    · exact isChain_zip h.2 x hx

theorem isChain_of_zip {α : Type _} {R : α → α → Prop} : ∀ {l : List α}, (∀ x ∈ l.zip l.tail, R x.1 x.2) → l.IsChain R
  | [], _ => .nil
  | [_], _ => .singleton _
  | a :: b :: l, h => by
    rw [List.isChain_cons_cons]
    refine ⟨h (a, b) (by simp), isChain_of_zip fun x hx => h x ?_⟩
    simp only [List.tail_cons, List.zip_cons_cons, List.mem_cons] at hx ⊢
    exact .inr hx

theorem Emitted.apart {em : List (LineOrPoint K × Winding)} (H : Emitted em) {e d : LineOrPoint K × Winding} (he : e ∈ em) (hd : d ∈ em)
    (hne : e ≠ d) : e.1.first = d.1.first → det e.1.first e.1.second d.1.second ≠ 0 := by
  intro k
  obtain ⟨b, S, s1, s2, -⟩ := H.vertex e.1.first
  have m1 : e ∈ S := s1.mem_iff.2 (List.mem_filter.2 ⟨he, by simp⟩)
  have m2 : d ∈ S := s1.mem_iff.2 (List.mem_filter.2 ⟨hd, by simp [k]⟩)
  obtain ⟨S1, S2, rfl⟩ := List.append_of_mem m1
  rw [List.pairwise_append, List.pairwise_cons] at s2
  rw [List.mem_append, List.mem_cons] at m2
  rcases m2 with m2 | m2 | m2
  · have := s2.2.2 d m2 e (by simp)
    have e0 : det e.1.first e.1.second d.1.second = - det e.1.first d.1.second e.1.second := by unfold det; ring
    rw [e0, neg_ne_zero]; exact this.ne'
  · exact absurd m2.symm hne
  · exact (s2.2.1.1 d m2).ne'

/-- Two edges of a ring start at its least vertex, with the region on different sides; the ring is a hole iff the lower one has the region
below it. -/
theorem Emitted.lowest {em : List (LineOrPoint K × Winding)} (H : Emitted em) (hp : ∀ v, PairedAt em v)
    {r : Rings K} {rings : List (Ring K)} (hr : ofEdges em = some r) (hf : r.finish = some rings) :
    ∀ g ∈ rings, ∀ a ∈ g.coords, (∀ q ∈ g.coords, a ≤ q) → ∃ e1 ∈ em, ∃ e2 ∈ em, e1.1.first = a ∧ e2.1.first = a ∧
      segBetween a e1.1.second ∈ (g.coords.zip g.coords.tail).map (fun x => segBetween x.1 x.2) ∧
      segBetween a e2.1.second ∈ (g.coords.zip g.coords.tail).map (fun x => segBetween x.1 x.2) ∧
      0 < det a e1.1.second e2.1.second ∧ e2.2 = e1.2.inverse ∧ (g.isHole = true ↔ e1.2 = .clockwise) := by
  have hne : ∀ e ∈ em, e.1.first ≠ e.1.second := fun e he => (H.lt e he).ne
  obtain ⟨r', h1, HR, -⟩ := ofEdges_inv em hne
  rw [hr] at h1; simp only [Option.some.injEq] at h1; subst h1
  have hsc := C37_rings_simple em hne hr hf
  rw [finish_eq] at hf
  cases hl : rawLoops r with
  | none => rw [hl] at hf; simp at hf
  | some loops =>
    rw [hl] at hf
    simp only [Option.bind_some] at hf
    obtain ⟨-, h2, -⟩ := rawLoops_spec HR hl
    have hdir := rawLoops_dir hne hp hr hl
    have hF := mapM_forall₂ hf
    intro g hg a ha hmin
    obtain ⟨x, hx, hxg⟩ := forall₂_mem_right hF hg
    obtain ⟨hn, hnx⟩ := h2 x hx
    have hco : g.coords = closeRing x.2 := by
      simp only [Ring.fromCoords, Option.map_eq_some_iff] at hxg
      obtain ⟨w, -, rfl⟩ := hxg; rfl
    have hmem : ∀ q, q ∈ g.coords ↔ q ∈ x.2 := by
      intro q
      rw [hco]
      cases hxx : x.2 with
      | nil => simp [closeRing]
      | cons y t =>
        simp only [closeRing, List.head?_cons]
        split
        · rfl
        · simp; tauto
    have hlen : 4 ≤ (closeRing x.2).length := by rw [← hco]; exact (hsc g hg).2.2
    have hlen3 : 3 ≤ x.2.length := by
      have : (closeRing x.2).length ≤ x.2.length + 1 := by
        unfold closeRing
        split
        · simp
        · split <;> simp
      omega
    have hax := (hmem a).1 ha
    have hminx : ∀ q ∈ x.2, a ≤ q := fun q hq => hmin q ((hmem q).2 hq)
    obtain ⟨pre, post, e⟩ := List.append_of_mem hax
    have hlt : ∀ q ∈ post ++ pre, a < q := by
      intro q hq
      have hn' := hn
      rw [e] at hn'
      rw [List.nodup_append] at hn'
      have hqa : q ∈ x.2 := by
        rw [e]; simp only [List.mem_append, List.mem_cons] at hq ⊢; tauto
      refine lt_of_le_of_ne (hminx q hqa) ?_
      rintro rfl
      rcases List.mem_append.1 hq with k | k
      · exact (List.nodup_cons.1 hn'.2.1).1 k
      · exact hn'.2.2 _ k _ (by simp) rfl
    have hcl : closeRing x.2 = x.2 ++ x.2.head?.toList := by
      cases hxx : x.2 with
      | nil => simp [closeRing]
      | cons y t =>
        have hy : (y :: t).getLast? ≠ some y := by
          intro hy
          rw [hxx] at hn hlen3
          have ht : t ≠ [] := by rintro rfl; simp at hlen3
          rw [List.getLast?_cons, Option.some.injEq, List.getLast?_eq_some_getLast ht, Option.getD_some] at hy
          exact (List.nodup_cons.1 hn).1 (hy ▸ List.getLast_mem ht)
        simp only [closeRing, List.head?_cons]
        rw [if_neg hy]; rfl
    have hch : CycChain (fun p q => Dir (dirOf em) x.1 p q ∧ (p, q) ∈ g.coords.zip g.coords.tail) x.2 := by
      have hd := hdir x hx
      unfold CycChain at hd ⊢
      rw [← hcl, ← hco] at hd ⊢
      exact isChain_of_zip fun y hy => ⟨isChain_zip hd y hy, hy⟩
    rw [e] at hch
    have hch := cycChain_rotate hch
    have hlpp : 2 ≤ (post ++ pre).length := by
      have := congrArg List.length e
      simp only [List.length_append, List.length_cons] at this ⊢
      omega
    rcases hpp : post ++ pre with _ | ⟨nx, rest⟩
    · rw [hpp] at hlpp; simp at hlpp
    · rcases List.eq_nil_or_concat rest with hr0 | ⟨m, pv, hr0⟩
      · rw [hpp, hr0] at hlpp; simp at hlpp
      · rw [List.concat_eq_append] at hr0
        subst hr0
        have hnp : nx ≠ pv := by
          intro k
          have hn' : (post ++ pre).Nodup := by
            rw [e] at hn
            have := (List.nodup_cons.1 (List.perm_middle.nodup_iff.1 hn)).2
            exact (List.perm_append_comm.nodup_iff).1 this
          rw [hpp, k] at hn'
          exact (List.nodup_cons.1 hn').1 (by simp)
        rw [hpp] at hlt hch
        have hnx : Dir (dirOf em) x.1 a nx ∧ (a, nx) ∈ g.coords.zip g.coords.tail := by
          simp only [List.cons_append, List.isChain_cons_cons] at hch
          exact hch.1
        have hpv : Dir (dirOf em) x.1 pv a ∧ (pv, a) ∈ g.coords.zip g.coords.tail := by
          have e3 : a :: nx :: (m ++ [pv]) ++ [a] = (a :: nx :: m) ++ [pv, a] := by simp
          rw [e3] at hch
          have := hch.right_of_append
          simp only [List.isChain_cons_cons] at this
          exact this.1
        obtain ⟨e1, n1, n2, n3, n4⟩ := dirOf_start H.lt (hlt nx (by simp)) hnx.1
        obtain ⟨e2, m1, m2, m3, m4⟩ := dirOf_start H.lt (hlt pv (by simp)) hpv.1.inverse
        have s1 : segBetween a e1.1.second ∈ (g.coords.zip g.coords.tail).map fun x => segBetween x.1 x.2 :=
          List.mem_map.2 ⟨_, hnx.2, by rw [n3]⟩
        have s2 : segBetween a e2.1.second ∈ (g.coords.zip g.coords.tail).map fun x => segBetween x.1 x.2 :=
          List.mem_map.2 ⟨_, hpv.2, by
            have := hlt pv (by simp)
            unfold segBetween
            rw [m3, if_pos this, if_neg (_root_.lt_asymm this), if_pos this]⟩
        obtain ⟨-, k2⟩ := C38_is_hole_partial hn e hpp hminx x.1
        have k2 := (k2 g hxg).2
        have hdet : det a e1.1.second e2.1.second ≠ 0 := by
          have hne12 : e1 ≠ e2 := by rintro rfl; exact hnp (n3.symm.trans m3)
          rw [← n2]
          exact H.apart n1 m1 hne12 (n2.trans m2.symm)
        have hdd : det pv a nx = det a e1.1.second e2.1.second := by rw [n3, m3]; unfold det; ring
        rw [hdd] at k2
        have hwi : ∀ w : Winding, w.inverse.inverse = w := by intro w; cases w <;> rfl
        rcases lt_or_gt_of_ne hdet with hd | hd
        · refine ⟨e2, m1, e1, n1, m2, n2, s2, s1, ?_, by rw [m4, n4, hwi], ?_⟩
          · have : det a e2.1.second e1.1.second = - det a e1.1.second e2.1.second := by unfold det; ring
            linarith
          · rw [k2, if_neg (not_lt.2 hd.le), m4]
            generalize x.1 = w
            cases w <;> simp [Winding.inverse]
        · refine ⟨e1, n1, e2, m1, n2, m2, s1, s2, hd, by rw [m4, n4], ?_⟩
          rw [k2, if_pos hd, n4]

/-- A ring is a hole iff there is an odd number of edges below its least vertex. -/
theorem Emitted.isHole {em : List (LineOrPoint K × Winding)} (H : Emitted em) (h4 : ∀ v, em.countP (fun e => e.1.first = v) ≤ 2)
    {r : Rings K} {rings : List (Ring K)} (hr : ofEdges em = some r) (hf : r.finish = some rings) :
    ∀ g ∈ rings, ∀ a ∈ g.coords, (∀ q ∈ g.coords, a ≤ q) → (g.isHole = true ↔ em.countP (edgeUnder a) % 2 = 1) := by
  intro g hg a ha hmin
  obtain ⟨e1, m1, e2, m2, f1, f2, -, -, hd, hw, key⟩ :=
    H.lowest (fun v => (H.vertex v).paired H.lt H.sorted (H.even v) (h4 v)) hr hf g hg a ha hmin
  obtain ⟨-, k⟩ := (H.vertex a).two (h4 a) m1 m2 f1 f2 hw
  rw [key, k, if_pos hd]

end GeoCrossings
