import Verif.Model.Monotone

/-!
# Where the debug build of `monotone_chains` returns, the release build returns the same
-/
set_option linter.unusedSectionVars false
namespace GeoCrossings.Monotone

variable {K : Type _} [Field K] [LinearOrder K]

theorem dassert_release {c : Bool} : dassert false c = some () := by simp [dassert]

theorem foldlM_release {α β : Type _} {f g : β → α → Option β} (h : ∀ s a r, f s a = some r → g s a = some r) :
    ∀ (l : List α) (s r : β), l.foldlM f s = some r → l.foldlM g s = some r
  | [], _, _, e => e
  | a :: l, s, r, e => by
    rw [List.foldlM_cons] at e ⊢
    obtain ⟨s', e1, e2⟩ := Option.bind_eq_some_iff.1 e
    exact Option.bind_eq_some_iff.2 ⟨s', h _ _ _ e1, foldlM_release h l s' r e2⟩

theorem bind_release {α β : Type _} {x y : Option α} {f g : α → Option β} (h : ∀ a, x = some a → y = some a)
    (hf : ∀ a r, f a = some r → g a = some r) : ∀ r, x.bind f = some r → y.bind g = some r := by
  intro r e
  obtain ⟨a, e1, e2⟩ := Option.bind_eq_some_iff.1 e
  exact Option.bind_eq_some_iff.2 ⟨a, h a e1, hf a r e2⟩

theorem dassert_bind_release {α : Type _} {c : Bool} {f g : Unit → Option α} (h : ∀ a r, f a = some r → g a = some r) :
    ∀ r, (dassert true c).bind f = some r → (dassert false c).bind g = some r :=
  bind_release (fun _ _ => dassert_release) h

theorem same_bind_release {α β : Type _} {x : Option α} {f g : α → Option β} (h : ∀ a r, f a = some r → g a = some r) :
    ∀ r, x.bind f = some r → x.bind g = some r :=
  bind_release (fun _ h => h) h

theorem finish_release (c : Chain K) : ∀ r, c.finish true = some r → c.finish false = some r :=
  dassert_bind_release fun _ _ h => h

theorem finishPair_release (chains : List (Chain K)) (i j : Nat) : ∀ r, finishPair true chains i j = some r → finishPair false chains i j = some r := by
  refine same_bind_release fun ci => bind_release (finish_release ci) fun ci' => same_bind_release fun cj =>
    bind_release (finish_release cj) fun cj' => same_bind_release fun c => dassert_bind_release fun _ _ h => h

theorem reduceCont_release (chains : List (Chain K)) (c : Nat) (looks : List Nat) :
    ∀ r, reduceCont true chains c looks = some r → reduceCont false chains c looks = some r := by
  have fin : ∀ (x : Nat × Nat) (r : List (Chain K)), (do
      let c' ← chains[c]?
      let (newNext, c') ← c'.pop
      let chains := chains.set c c'
      let cp ← chains[x.1]?
      dassert true (c'.next = cp.next)
      let chains ← finishPair true chains c x.1
      let co ← chains[x.2]?
      pure (chains.set x.2 (co.advance newNext))) = some r → (do
      let c' ← chains[c]?
      let (newNext, c') ← c'.pop
      let chains := chains.set c c'
      let cp ← chains[x.1]?
      dassert false (c'.next = cp.next)
      let chains ← finishPair false chains c x.1
      let co ← chains[x.2]?
      pure (chains.set x.2 (co.advance newNext))) = some r := by
    intro x
    refine same_bind_release fun c' => same_bind_release ?_
    rintro ⟨nn, c''⟩
    exact same_bind_release fun cp => dassert_bind_release fun _ => bind_release (finishPair_release _ _ _) fun ch _ h => h
  unfold reduceCont
  refine dassert_bind_release fun _ => same_bind_release fun l0 => same_bind_release fun c0 => ?_
  intro r h
  dsimp only at h ⊢
  split at h
  · rename_i h1
    rw [if_pos h1]
    exact same_bind_release (fun x => fin x) r h
  · rename_i h1
    rw [if_neg h1]
    refine same_bind_release (fun l1 => same_bind_release fun c1 => ?_) r h
    intro r h
    beta_reduce at h ⊢
    split at h
    · rename_i h2
      rw [if_pos h2]
      exact same_bind_release (fun x => fin x) r h
    · rename_i h2
      rw [if_neg h2]
      exact same_bind_release (fun x => fin x) r h

theorem reduceOne_release (chains : List (Chain K)) (i : Nat) : ∀ r, reduceOne true chains i = some r → reduceOne false chains i = some r := by
  unfold reduceOne
  refine same_bind_release fun c1 => same_bind_release fun c2 => dassert_bind_release fun _ r h => ?_
  split at h
  · rename_i h1; rw [if_pos h1]; exact h
  · rename_i h1; rw [if_neg h1]
    split at h
    · rename_i h2; rw [if_pos h2]; exact finishPair_release _ _ _ r h
    · rename_i h2; rw [if_neg h2]; exact h

theorem reduce_release (pt : Pt K) (chains : List (Chain K)) (ci : Option Nat) : ∀ r, reduce true pt chains ci = some r → reduce false pt chains ci = some r := by
  unfold reduce
  refine dassert_bind_release fun _ r h => ?_
  cases ci with
  | none => exact foldlM_release (fun s a r h => reduceOne_release s a r h) _ _ r h
  | some c =>
    simp only at h ⊢
    split at h
    · rename_i h1; rw [if_pos h1]; exact h
    · rename_i h1; rw [if_neg h1]; exact reduceCont_release _ _ _ r h

theorem splitIdx_release (chains : List (Chain K)) (prev next : Pt K) : ∀ r, splitIdx true chains prev next = some r → splitIdx false chains prev next = some r := by
  unfold splitIdx
  split
  · exact fun _ h => h
  · refine same_bind_release fun ci => same_bind_release fun cj => ?_
    intro r h
    dsimp only at h ⊢
    split at h
    · rename_i h1; rw [if_pos h1]; exact h
    · rename_i h1; rw [if_neg h1]
      refine bind_release ?_ (fun _ _ h => h) r h
      intro x h
      rw [Option.map_eq_some_iff] at h ⊢
      obtain ⟨_, -, h⟩ := h
      exact ⟨(), dassert_release, h⟩
  · exact fun _ h => h

theorem applyLink_release (pt : Pt K) (ty : VertexType) (s : List (Chain K) × Option Nat) (l : Link K) :
    ∀ r, applyLink true pt ty s l = some r → applyLink false pt ty s l = some r := by
  obtain ⟨chains, ci⟩ := s
  cases l with
  | start root top bot => exact dassert_bind_release fun _ _ h => h
  | cont a b c w => exact dassert_bind_release fun _ _ h => h
  | merge a b l => exact dassert_bind_release fun _ => bind_release (same_bind_release fun _ => dassert_bind_release fun _ _ h => h) fun _ _ h => h
  | split a b c d =>
    exact dassert_bind_release fun _ => bind_release (bind_release (splitIdx_release _ _ _) fun _ _ h => h) fun _ _ h => h
  | finish a b c => exact dassert_bind_release fun _ _ h => h

theorem applyEvent_release (chains : List (Chain K)) (ev : SweepEvent K) : ∀ r, applyEvent true chains ev = some r → applyEvent false chains ev = some r :=
  bind_release (foldlM_release (fun s a r h => applyLink_release _ _ s a r h) _ _) fun ⟨ch, ci⟩ r h => reduce_release _ ch ci r h

theorem run_release : ∀ (fuel : Nat) (sw : Sweep K) (chains : List (Chain K)), ∀ r, run true fuel sw chains = some r → run false fuel sw chains = some r
  | 0, _, _, _, h => h
  | fuel + 1, sw, chains, r, h => by
    rw [run] at h ⊢
    cases hp : processEvent sw with
    | none => rw [hp] at h; cases h
    | some x =>
      obtain ⟨sw', o⟩ := x
      rw [hp] at h
      cases o with
      | none => exact h
      | some ev => exact bind_release (applyEvent_release chains ev) (run_release fuel sw') r h

theorem collect_release (chains : List (Chain K)) : ∀ r, collect true chains = some r → collect false chains = some r :=
  dassert_bind_release fun _ => dassert_bind_release fun _ _ h => h

theorem monotoneChains_release (srt : List (Event K) → List (Event K)) (p : Polygon K) :
    ∀ r, monotoneChains true srt p = some r → monotoneChains false srt p = some r :=
  same_bind_release fun _ => bind_release (run_release _ _ _) collect_release

end GeoCrossings.Monotone
