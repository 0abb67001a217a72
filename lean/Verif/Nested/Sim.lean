import Verif.Nested.Copy
import Verif.Nested.Client
set_option autoImplicit false
/-
Every call on lists of lists does to both levels what the specification says.
-/
namespace Nestl.NL
open Nestl.LL Nestl.LC
variable {V : Type} {ns ns' : NS V} {σo : Sg Ptr} {σi : Sg V}

/-- The program state holds the outer lists `σo` and the inner lists `σi`. -/
structure J (ns : NS V) (σo : Sg Ptr) (σi : Sg V) : Prop where
  o : Inv ns.o σo
  oo : Own σo
  i : Inv ns.i σi
  io : Own σi
  link : Linked σo σi

/-- The program state `ns` holds the outer lists `O` and the inner lists `I`. -/
def NSim (ns : NS V) (O : AState Ptr) (I : AState V) : Prop := ∃ σo σi, J ns σo σi ∧ O = abs σo ∧ I = abs σi

def NPost (ns : NS V) (O : AState Ptr) (I : AState V) (c : NCall V) (r : Res) (ns' : NS V) : Prop :=
  ∃ O' I', Spec O I c r ns'.o.err.isSome O' I' ∧ NSim ns' O' I' ∧ (∃ k, Adv ns.o ns'.o k) ∧ (∃ k, Adv ns.i ns'.i k) ∧
    (Good ns.o → Good ns.i → ns'.o.err = none)

theorem NPost.mk' {O : AState Ptr} {I : AState V} {c : NCall V} {r : Res} {k k' : Nat} (h : J ns' σo σi)
    (ha : Adv ns.o ns'.o k) (hb : Adv ns.i ns'.i k') (hsp : Spec O I c r ns'.o.err.isSome (abs σo) (abs σi))
    (hg : Good ns.o → Good ns.i → ns'.o.err = none) : NPost ns O I c r ns' :=
  ⟨_, _, hsp, ⟨_, _, h, rfl, rfl⟩, ⟨k, ha⟩, ⟨k', hb⟩, hg⟩

/-! ### Abstract states -/

/-- The elements of the outer lists are distinct live inner lists. -/
structure ALinked (O : AState Ptr) (I : AState V) : Prop where
  alive : ∀ s a L x, O s = some (a, L) → x ∈ L → I x.2 ≠ none
  inj : ∀ s a L x t b M y, O s = some (a, L) → x ∈ L → O t = some (b, M) → y ∈ M → x.2 = y.2 → x.1 = y.1

theorem mem_view {l : List (El V)} {x : Ptr × V} : x ∈ view l ↔ ∃ e ∈ l, (e.p, e.v) = x := List.mem_map

theorem mem_view_of {l : List (El V)} {e : El V} (h : e ∈ l) : (e.p, e.v) ∈ view l := mem_view.2 ⟨e, h, rfl⟩

theorem linked_iff : Linked σo σi ↔ ALinked (abs σo) (abs σi) := by
  constructor
  · rintro ⟨h1, h2⟩
    refine ⟨?_, ?_⟩
    · intro s a L x hs hx
      obtain ⟨l, hl, rfl⟩ := abs_inv hs
      obtain ⟨e, he, rfl⟩ := mem_view.1 hx
      rw [Ne, abs_none]; exact h1 s _ e hl he
    · intro s a L x t b M y hs hx ht hy hxy
      obtain ⟨l, hl, rfl⟩ := abs_inv hs
      obtain ⟨m, hm, rfl⟩ := abs_inv ht
      obtain ⟨e, he, rfl⟩ := mem_view.1 hx
      obtain ⟨f, hf, rfl⟩ := mem_view.1 hy
      exact h2 s _ e t _ f hl he hm hf hxy
  · rintro ⟨h1, h2⟩
    refine ⟨?_, ?_⟩
    · intro s ls e hs he
      have := h1 s _ _ _ (abs_some hs) (mem_view_of he)
      rwa [Ne, abs_none] at this
    · intro s ls e t lt f hs he ht hf hef
      exact h2 s _ _ _ t _ _ _ (abs_some hs) (mem_view_of he) (abs_some ht) (mem_view_of hf) hef

theorem ALinked.mono {O O' : AState Ptr} {I I' : AState V} (h : ALinked O I)
    (hsub : ∀ s a L x, O' s = some (a, L) → x ∈ L → ∃ t b M, O t = some (b, M) ∧ x ∈ M)
    (hal : ∀ s a L x, O' s = some (a, L) → x ∈ L → I' x.2 ≠ none) : ALinked O' I' := by
  refine ⟨hal, ?_⟩
  intro s a L x t b M y hs hx ht hy hxy
  obtain ⟨s', a', L', hs', hx'⟩ := hsub s a L x hs hx
  obtain ⟨t', b', M', ht', hy'⟩ := hsub t b M y ht hy
  exact h.inj s' a' L' x t' b' M' y hs' hx' ht' hy' hxy

/-- Structural calls keep the elements. -/
theorem structural_sub {O O' : AState Ptr} {c : Call Ptr} {r : Res} {b : Bool} (hc : Structural c)
    (hsp : LC.Spec O c r b O') : ∀ s a L x, O' s = some (a, L) → x ∈ L → ∃ t b M, O t = some (b, M) ∧ x ∈ M := by
  have one : ∀ {u : Ptr} {a : Nat} {K : List (Ptr × Ptr)}, (∀ x ∈ K, ∃ t b M, O t = some (b, M) ∧ x ∈ M) →
      ∀ s a' L x, upd O u (some (a, K)) s = some (a', L) → x ∈ L → ∃ t b M, O t = some (b, M) ∧ x ∈ M := by
    intro u a K hK s a' L x hs hx
    rw [upd_apply] at hs; split at hs
    · cases hs; exact hK x hx
    · exact ⟨s, a', L, hs, hx⟩
  have two : ∀ {u v : Ptr} {a a2 : Nat} {K K2 : List (Ptr × Ptr)}, (∀ x ∈ K, ∃ t b M, O t = some (b, M) ∧ x ∈ M) →
      (∀ x ∈ K2, ∃ t b M, O t = some (b, M) ∧ x ∈ M) →
      ∀ s a' L x, upd (upd O u (some (a, K))) v (some (a2, K2)) s = some (a', L) → x ∈ L →
        ∃ t b M, O t = some (b, M) ∧ x ∈ M := by
    intro u v a a2 K K2 hK hK2 s a' L x hs hx
    rw [upd_apply] at hs; split at hs
    · cases hs; exact hK2 x hx
    · exact one hK s a' L x hs hx
  cases c <;> try exact hc.elim
  case create a =>
    obtain ⟨-, s, -, -, rfl⟩ := hsp
    exact one (by simp)
  case move s =>
    obtain ⟨-, d, a, L, -, -, hs, rfl⟩ := hsp
    exact two (by simp) fun x hx => ⟨_, _, _, hs, hx⟩
  case swap s t =>
    obtain ⟨-, a, L, M, hs, ht, rfl⟩ := hsp
    exact two (fun x hx => ⟨_, _, _, ht, hx⟩) fun x hx => ⟨_, _, _, hs, hx⟩
  case merge lt s t =>
    obtain ⟨-, a, L, M, hs, ht, -, N, hN, -, rfl⟩ := hsp
    refine two (fun x hx => ?_) (by simp)
    rcases List.mem_append.1 (hN.mem_iff.1 hx) with h1 | h1
    · exact ⟨_, _, _, hs, h1⟩
    · exact ⟨_, _, _, ht, h1⟩
  case spliceAll s pos t =>
    obtain ⟨-, -, a, X, Y, M, hs, -, ht, rfl⟩ := hsp
    refine two (fun x hx => ?_) (by simp)
    simp only [List.mem_append] at hx
    rcases hx with h1 | h1 | h1
    · exact ⟨_, _, _, hs, by simp [h1]⟩
    · exact ⟨_, _, _, ht, h1⟩
    · exact ⟨_, _, _, hs, by simp [h1]⟩
  case spliceOne s pos t it =>
    obtain ⟨-, a, ⟨-, X, Y, C, x, D, hs, -, ht, -, rfl⟩ | ⟨rfl, X, x, Z, Y, hs, -, -, rfl⟩ | ⟨rfl, X, Z, x, Y, hs, -, -, rfl⟩⟩ := hsp
    · refine two (fun y hy => ?_) (fun y hy => ⟨_, _, _, ht, ?_⟩)
      · simp only [List.mem_append, List.mem_cons] at hy
        rcases hy with h1 | rfl | h1
        · exact ⟨_, _, _, hs, by simp [h1]⟩
        · exact ⟨_, _, _, ht, by simp⟩
        · exact ⟨_, _, _, hs, by simp [h1]⟩
      · simp only [List.mem_append, List.mem_cons] at hy ⊢
        rcases hy with h1 | h1 <;> simp [h1]
    · refine one fun y hy => ⟨_, _, _, hs, ?_⟩
      simp only [List.mem_append, List.mem_cons] at hy ⊢
      rcases hy with h1 | h1 | h1 | h1 <;> simp [h1]
    · refine one fun y hy => ⟨_, _, _, hs, ?_⟩
      simp only [List.mem_append, List.mem_cons] at hy ⊢
      rcases hy with h1 | h1 | h1 | h1 <;> simp [h1]
  case spliceRange s pos t f l =>
    obtain ⟨-, a, ⟨-, X, Y, C, M, D, hs, -, ht, -, -, rfl⟩ | ⟨rfl, X, M, Z, Y, hs, -, -, -, rfl⟩ | ⟨rfl, X, Z, M, Y, hs, -, -, -, rfl⟩⟩ := hsp
    · refine two (fun y hy => ?_) (fun y hy => ⟨_, _, _, ht, ?_⟩)
      · simp only [List.mem_append] at hy
        rcases hy with h1 | h1 | h1
        · exact ⟨_, _, _, hs, by simp [h1]⟩
        · exact ⟨_, _, _, ht, by simp [h1]⟩
        · exact ⟨_, _, _, hs, by simp [h1]⟩
      · simp only [List.mem_append] at hy ⊢
        rcases hy with h1 | h1 <;> simp [h1]
    · refine one fun y hy => ⟨_, _, _, hs, ?_⟩
      simp only [List.mem_append] at hy ⊢
      rcases hy with h1 | h1 | h1 | h1 <;> simp [h1]
    · refine one fun y hy => ⟨_, _, _, hs, ?_⟩
      simp only [List.mem_append] at hy ⊢
      rcases hy with h1 | h1 | h1 | h1 <;> simp [h1]
  case sort lt s =>
    obtain ⟨-, a, L, L', hs, hst, rfl⟩ := hsp
    exact one fun x hx => ⟨_, _, _, hs, hst.1.mem_iff.1 hx⟩

/-- Calls on inner lists end no lifetime except that of a destroyed list. -/
theorem inner_keep {I I' : AState V} {c : Call V} {r : Res} {b : Bool} (hsp : LC.Spec I c r b I') {q : Ptr}
    (hd : ∀ p, c = .destroy p → p ≠ q) (hq : I q ≠ none) : I' q ≠ none := by
  have one : ∀ {u : Ptr} {x : Nat × List (Ptr × V)}, upd I u (some x) q ≠ none := by
    intro u x; rw [upd_apply]; split
    · simp
    · exact hq
  have two : ∀ {u v : Ptr} {x y : Nat × List (Ptr × V)}, upd (upd I u (some x)) v (some y) q ≠ none := by
    intro u v x y; rw [upd_apply]; split
    · simp
    · exact one
  cases c
  case create a => obtain ⟨-, s, -, -, rfl⟩ := hsp; exact one
  case insert s pos v =>
    obtain ⟨a, X, Y, -, -, h⟩ := hsp
    split at h
    · rw [h.2]; exact hq
    · obtain ⟨n, -, -, rfl⟩ := h; exact one
  case insertN s pos n v => obtain ⟨_, _, _, _, _, -, -, -, -, -, rfl⟩ := hsp; exact one
  case insertRange s pos vs => obtain ⟨_, _, _, _, _, -, -, -, -, -, rfl⟩ := hsp; exact one
  case erase s pos => obtain ⟨-, _, _, _, _, -, -, rfl⟩ := hsp; exact one
  case eraseRange s f l => obtain ⟨-, _, _, _, _, -, -, -, -, rfl⟩ := hsp; exact one
  case pushBack s v =>
    obtain ⟨a, L, -, h⟩ := hsp
    split at h
    · rw [h]; exact hq
    · obtain ⟨n, -, rfl⟩ := h; exact one
  case pushFront s v =>
    obtain ⟨a, L, -, h⟩ := hsp
    split at h
    · rw [h]; exact hq
    · obtain ⟨n, -, rfl⟩ := h; exact one
  case popBack s => obtain ⟨-, _, _, _, -, rfl⟩ := hsp; exact one
  case popFront s => obtain ⟨-, _, _, _, -, rfl⟩ := hsp; exact one
  case clear s => obtain ⟨-, _, _, -, rfl⟩ := hsp; exact one
  case assignN s n v => obtain ⟨_, _, _, _, -, -, -, -, rfl⟩ := hsp; exact one
  case assignVals s vs => obtain ⟨_, _, _, _, -, -, -, -, rfl⟩ := hsp; exact one
  case assignRange s t f l => obtain ⟨_, _, _, _, _, _, _, _, -, -, -, -, -, -, -, rfl⟩ := hsp; exact one
  case copy d s => obtain ⟨_, _, _, _, _, _, -, -, -, -, -, rfl⟩ := hsp; exact one
  case move s => obtain ⟨-, _, _, _, -, -, -, rfl⟩ := hsp; exact two
  case moveAssign s t =>
    obtain ⟨-, _, _, _, -, -, rfl⟩ := hsp
    split
    · exact one
    · exact two
  case swap s t => obtain ⟨-, _, _, _, -, -, rfl⟩ := hsp; exact two
  case merge lt s t => obtain ⟨-, _, _, _, -, -, -, _, -, -, rfl⟩ := hsp; exact two
  case spliceAll s pos t => obtain ⟨-, -, _, _, _, _, -, -, -, rfl⟩ := hsp; exact two
  case spliceOne s pos t it =>
    obtain ⟨-, a, ⟨-, _, _, _, _, _, -, -, -, -, rfl⟩ | ⟨-, _, _, _, _, -, -, -, rfl⟩ | ⟨-, _, _, _, _, -, -, -, rfl⟩⟩ := hsp
    · exact two
    · exact one
    · exact one
  case spliceRange s pos t f l =>
    obtain ⟨-, a, ⟨-, _, _, _, _, _, -, -, -, -, -, rfl⟩ | ⟨-, _, _, _, _, -, -, -, -, rfl⟩ | ⟨-, _, _, _, _, -, -, -, -, rfl⟩⟩ := hsp
    · exact two
    · exact one
    · exact one
  case sort lt s => obtain ⟨-, _, _, _, -, -, rfl⟩ := hsp; exact one
  case destroy s =>
    obtain ⟨-, _, _, -, rfl⟩ := hsp
    rw [upd_other _ _ (Ne.symm (hd s rfl))]; exact hq

theorem abs_without (qs : List Ptr) : abs (without σi qs) = Gone (abs σi) qs := by
  funext q; unfold abs without Gone; split <;> simp

theorem without_one (q : Ptr) : upd σi q none = without σi [q] := by
  funext r; simp [without, upd_apply]

theorem isElem_iff (h : J ns σo σi) {q : Ptr} : IsElem ns q ↔ ∃ s ls e, σo s = some ls ∧ e ∈ ls.els ∧ e.v = q := by
  constructor
  · rintro ⟨s, X, n, Y, ha, hc⟩
    obtain ⟨ls, hs⟩ := (alive_iff h.o).1 ha
    have := (contents_iff h.o hs).1 hc
    have hm : (n, q) ∈ view ls.els := by rw [← this]; simp
    obtain ⟨e, he, h1⟩ := mem_view.1 hm
    cases h1
    exact ⟨s, ls, e, hs, he, rfl⟩
  · rintro ⟨s, ls, e, hs, he, rfl⟩
    obtain ⟨A, B, hA⟩ := List.append_of_mem he
    exact ⟨s, view A, e.p, view B, (alive_iff h.o).2 ⟨ls, hs⟩, (contents_iff h.o hs).2 (by rw [hA]; simp)⟩

/-! ### Removal of elements -/

/-- Elements other than those removed are kept alive. -/
theorem J.link_remove (h : J ns σo σi) {s : Ptr} {ls : Lst Ptr} (hs : σo s = some ls) {R : List (El Ptr)}
    (hR : ∀ e ∈ R, e ∈ ls.els) {σo' : Sg Ptr}
    (hsub : ∀ t lt e, σo' t = some lt → e ∈ lt.els → e.p ∉ ptrs R ∧ ∃ u lu, σo u = some lu ∧ e ∈ lu.els) :
    Linked σo' (without σi (R.map El.v)) := by
  refine ⟨?_, ?_⟩
  · intro t lt e ht he
    obtain ⟨h1, u, lu, hu, he'⟩ := hsub t lt e ht he
    unfold without
    rw [if_neg]
    · exact h.link.alive u lu e hu he'
    · intro hc
      obtain ⟨f, hf, hfe⟩ := List.mem_map.1 hc
      have := h.link.inj s ls f u lu e hs (hR f hf) hu he' hfe
      exact h1 (this ▸ mem_ptrs_of hf)
  · intro t lt e u lu f ht he hu hf hef
    obtain ⟨-, t', lt', ht', he'⟩ := hsub t lt e ht he
    obtain ⟨-, u', lu', hu', hf'⟩ := hsub u lu f hu hf
    exact h.link.inj _ _ _ _ _ _ ht' he' hu' hf' hef

theorem J.link_removeOne (h : J ns σo σi) {s : Ptr} {ls : Lst Ptr} (hs : σo s = some ls) {A B : List (El Ptr)} {e : El Ptr}
    (hA : ls.els = A ++ e :: B) : Linked (upd σo s (some ⟨ls.alloc, A ++ B⟩)) (upd σi e.v none) := by
  rw [without_one]
  refine h.link_remove (R := [e]) hs (by simp [hA]) ?_
  intro t lt f ht hf
  rw [upd_apply] at ht; split at ht
  · cases ht
    refine ⟨?_, s, ls, hs, ?_⟩
    · have hn := h.o.st.nodup s ls hs
      rw [hA] at hn
      simp only [ptrs_append, ptrs_cons, List.nodup_append, List.nodup_cons, List.mem_cons] at hn
      simp only [List.mem_append] at hf
      simp only [ptrs_cons, ptrs_nil, List.mem_singleton]
      rcases hf with h1 | h1
      · intro hc; exact hn.2.2 _ (mem_ptrs_of h1) _ (.inl rfl) hc
      · intro hc; exact hn.2.1.1 (hc ▸ mem_ptrs_of h1)
    · rw [hA]; simp only [List.mem_append, List.mem_cons] at hf ⊢
      rcases hf with h1 | h1 <;> simp [h1]
  · next hts =>
    refine ⟨?_, t, lt, ht, hf⟩
    simp only [ptrs_cons, ptrs_nil, List.mem_singleton]
    intro hc
    exact h.o.st.disj t s lt ls ht hs hts _ (mem_ptrs_of hf) (by rw [hc, hA]; simp)

theorem J.link_removeAll (h : J ns σo σi) {s : Ptr} {ls : Lst Ptr} (hs : σo s = some ls) {x : Option (Lst Ptr)}
    (hx : ∀ lx, x = some lx → lx.els = []) : Linked (upd σo s x) (without σi (ls.els.map El.v)) := by
  refine h.link_remove hs (fun e he => he) ?_
  intro t lt f ht hf
  rw [upd_apply] at ht; split at ht
  · rw [hx lt ht] at hf; cases hf
  · next hts => exact ⟨fun hc => h.o.st.disj t s lt ls ht hs hts _ (mem_ptrs_of hf) hc, t, lt, ht, hf⟩

theorem own_sub (ho : Own σo) {s : Ptr} {ls : Lst Ptr} (hs : σo s = some ls) {l : List (El Ptr)} (hl : ∀ e ∈ l, e ∈ ls.els) :
    Own (upd σo s (some ⟨ls.alloc, l⟩)) := ho.set fun e he => ho s ls hs e (hl e he)

theorem sim_erase (h : J ns σo σi) (he : ns.o.err = none) {s pos : Ptr} (hv : Valid ns (.erase s pos)) :
    wp (exec (.erase s pos)) ns (NPost ns (abs σo) (abs σi) (.erase s pos)) := by
  obtain ⟨ha, X, v, Y, hc⟩ := hv
  obtain ⟨ls, hs⟩ := (alive_iff h.o).1 ha
  obtain ⟨A, B', hA, rfl, hB⟩ := view_split ((contents_iff h.o hs).1 hc).symm
  obtain ⟨e, B, rfl, hx, rfl⟩ := view_cons_inv hB
  cases hx
  have hmem : e ∈ ls.els := by rw [hA]; simp
  obtain ⟨lq, hlq⟩ := Option.ne_none_iff_exists'.1 (h.link.alive s ls e hs hmem)
  unfold exec; simp only [wp_bind]
  refine wp_erase h.o hs hA (h.oo s ls hs e hmem) h.i hlq (h.io _ _ hlq) ?_
  intro ns' hadv herr hsp h' _ hadvi hi'
  refine NPost.mk' ⟨h', own_sub h.oo hs ?_, hi', h.io.drop, h.link_removeOne hs hA⟩ hadv hadvi ?_
    (fun _ _ => herr.trans he)
  · intro f hf; rw [hA]; simp only [List.mem_append, List.mem_cons] at hf ⊢
    rcases hf with h1 | h1 <;> simp [h1]
  · refine ⟨isSome_none (herr.trans he), ls.alloc, view A, e.v, view B, ?_, ?_, ?_, ?_⟩
    · rw [abs_some hs, hA]; simp
    · rw [posOf_view]
    · rw [abs_upd]; simp
    · rw [without_one, abs_without]

theorem sim_popBack (h : J ns σo σi) (he : ns.o.err = none) {s : Ptr} (hv : Valid ns (.popBack s)) :
    wp (exec (.popBack s)) ns (NPost ns (abs σo) (abs σi) (.popBack s)) := by
  obtain ⟨ls, hs⟩ := (alive_iff h.o).1 hv.1
  have hne : ls.els ≠ [] := by
    intro h0; exact hv.2 ((contents_iff h.o hs).2 (by rw [h0]; rfl))
  obtain ⟨A, e, hA⟩ : ∃ A e, ls.els = A ++ [e] := ⟨_, _, (List.dropLast_concat_getLast hne).symm⟩
  have hmem : e ∈ ls.els := by rw [hA]; simp
  obtain ⟨lq, hlq⟩ := Option.ne_none_iff_exists'.1 (h.link.alive s ls e hs hmem)
  unfold exec; simp only [wp_bind]
  refine wp_popBack h.o hs hA (h.oo s ls hs e hmem) h.i hlq (h.io _ _ hlq) ?_
  intro ns' hadv herr hsp h' _ hadvi hi'
  have hl := h.link_removeOne hs hA
  rw [List.append_nil] at hl
  refine NPost.mk' ⟨h', own_sub h.oo hs ?_, hi', h.io.drop, hl⟩ hadv hadvi ?_
    (fun _ _ => herr.trans he)
  · intro f hf; rw [hA]; simp [hf]
  · refine ⟨isSome_none (herr.trans he), ls.alloc, view A, e.p, e.v, ?_, ?_, ?_⟩
    · rw [abs_some hs, hA]; simp
    · rw [abs_upd]
    · rw [without_one, abs_without]

theorem sim_popFront (h : J ns σo σi) (he : ns.o.err = none) {s : Ptr} (hv : Valid ns (.popFront s)) :
    wp (exec (.popFront s)) ns (NPost ns (abs σo) (abs σi) (.popFront s)) := by
  obtain ⟨ls, hs⟩ := (alive_iff h.o).1 hv.1
  have hne : ls.els ≠ [] := by
    intro h0; exact hv.2 ((contents_iff h.o hs).2 (by rw [h0]; rfl))
  obtain ⟨e, B, hA⟩ := List.exists_cons_of_ne_nil hne
  have hmem : e ∈ ls.els := by rw [hA]; simp
  obtain ⟨lq, hlq⟩ := Option.ne_none_iff_exists'.1 (h.link.alive s ls e hs hmem)
  unfold exec; simp only [wp_bind]
  refine wp_popFront h.o hs hA (h.oo s ls hs e hmem) h.i hlq (h.io _ _ hlq) ?_
  intro ns' hadv herr hsp h' _ hadvi hi'
  have hl := h.link_removeOne hs (A := []) hA
  refine NPost.mk' ⟨h', own_sub h.oo hs ?_, hi', h.io.drop, hl⟩ hadv hadvi ?_
    (fun _ _ => herr.trans he)
  · intro f hf; rw [hA]; simp [hf]
  · refine ⟨isSome_none (herr.trans he), ls.alloc, view B, e.p, e.v, ?_, ?_, ?_⟩
    · rw [abs_some hs, hA]; simp
    · rw [abs_upd]
    · rw [without_one, abs_without]

theorem els_alive (h : J ns σo σi) {s : Ptr} {ls : Lst Ptr} (hs : σo s = some ls) : ∀ e ∈ ls.els, σi e.v ≠ none :=
  fun e he => h.link.alive s ls e hs he

theorem view_map_snd (l : List (El V)) : (view l).map Prod.snd = l.map El.v := view_snd l

theorem sim_clear (h : J ns σo σi) (he : ns.o.err = none) {s : Ptr} (hv : Valid ns (.clear s)) :
    wp (exec (.clear s)) ns (NPost ns (abs σo) (abs σi) (.clear s)) := by
  obtain ⟨ls, hs⟩ := (alive_iff h.o).1 hv
  unfold exec; simp only [wp_bind]
  refine wp_clear h.o hs (h.oo s ls hs) h.i h.io (els_alive h hs) (h.link.nodup h.o.st hs) ?_
  intro ns' hadv herr hsp h' hadvi hi'
  refine NPost.mk' ⟨h', h.oo.set (by simp), hi', h.io.without _, h.link_removeAll hs (by rintro _ ⟨⟩; rfl)⟩ hadv hadvi ?_
    (fun _ _ => herr.trans he)
  refine ⟨isSome_none (herr.trans he), ls.alloc, view ls.els, abs_some hs, by rw [abs_upd]; simp, ?_⟩
  rw [abs_without, view_snd]

theorem sim_destroy (h : J ns σo σi) (he : ns.o.err = none) {s : Ptr} (hv : Valid ns (.destroy s)) :
    wp (exec (.destroy s)) ns (NPost ns (abs σo) (abs σi) (.destroy s)) := by
  obtain ⟨ls, hs⟩ := (alive_iff h.o).1 hv
  unfold exec; simp only [wp_bind]
  refine wp_destroy h.o hs (h.oo s ls hs) h.i h.io (els_alive h hs) (h.link.nodup h.o.st hs) ?_
  intro ns' hadv herr hsp h' hadvi hi'
  refine NPost.mk' ⟨h', h.oo.drop, hi', h.io.without _, h.link_removeAll hs (by simp)⟩ hadv hadvi ?_
    (fun _ _ => herr.trans he)
  refine ⟨isSome_none (herr.trans he), ls.alloc, view ls.els, abs_some hs, abs_upd_none, ?_⟩
  rw [abs_without, view_snd]

theorem sim_moveAssign (h : J ns σo σi) (he : ns.o.err = none) {s t : Ptr} (hv : Valid ns (.moveAssign s t)) :
    wp (exec (.moveAssign s t)) ns (NPost ns (abs σo) (abs σi) (.moveAssign s t)) := by
  obtain ⟨ha, hb, hsa⟩ := hv
  obtain ⟨ls, hs⟩ := (alive_iff h.o).1 ha
  obtain ⟨lt, ht⟩ := (alive_iff h.o).1 hb
  have hal := same_alloc h.o hs ht hsa
  unfold exec; simp only [wp_bind]
  refine wp_moveAssign h.o hs ht (h.oo s ls hs) h.i h.io (els_alive h hs) (h.link.nodup h.o.st hs) ?_
  intro ns' hadv herr h' hadvi hi'
  refine NPost.mk' ⟨h', ?_, hi', h.io.without _, ?_⟩ hadv hadvi ?_
    (fun _ _ => herr.trans he)
  · split
    · exact h.oo.set (by simp)
    · refine (h.oo.set ?_).set (by simp)
      rw [hal]; exact h.oo t lt ht
  · split
    · exact h.link_removeAll hs (by rintro _ ⟨⟩; rfl)
    · next hst =>
      refine h.link_remove hs (fun e he => he) ?_
      intro u lu f hu hf
      rw [upd_apply] at hu; split at hu
      · cases hu; cases hf
      · rw [upd_apply] at hu; split at hu
        · cases hu
          exact ⟨fun hc => h.o.st.disj t s lt ls ht hs (Ne.symm hst) _ (mem_ptrs_of hf) hc, t, lt, ht, hf⟩
        · next hus =>
          exact ⟨fun hc => h.o.st.disj u s lu ls hu hs hus _ (mem_ptrs_of hf) hc, u, lu, hu, hf⟩
  · refine ⟨isSome_none (herr.trans he), ls.alloc, view ls.els, view lt.els, abs_some hs, by rw [abs_some ht, hal], ?_, ?_⟩
    · split
      · rw [abs_upd]; simp
      · rw [abs_upd, abs_upd, hal]; simp
    · rw [abs_without, view_snd]

/-! ### Insertion of elements -/

theorem made_spec {copy : Bool} {t q : Ptr} {σi' : Sg V} {i' : W V} (hi : Inv ns.i σi) (hi' : Inv i' σi')
    (hm : Made copy ns.i σi t q σi') : NewList copy (abs σi) t q (abs σi') := by
  obtain ⟨lt, ht, hq, hm⟩ := hm
  refine ⟨abs_none.2 hq, lt.alloc, view lt.els, abs_some ht, ?_⟩
  cases copy with
  | true =>
    obtain ⟨N, hN, hfr, rfl⟩ := hm
    refine ⟨view N, ⟨by rw [view_snd, view_snd, hN], ?_, ?_⟩, abs_upd _ _⟩
    · rw [view_fst]; exact hi'.st.nodup q _ (upd_same _ _ _)
    · intro x hx
      obtain ⟨e, he, rfl⟩ := mem_view.1 hx
      exact unused hi (hfr e he).1
  | false =>
    have hm : σi' = _ := hm
    simp only [hm]
    exact (abs_upd _ _).trans (by rw [abs_upd]; simp)

theorem J.link_insert {copy : Bool} (h : J ns σo σi) {s : Ptr} {ls : Lst Ptr} (hs : σo s = some ls) {A B : List (El Ptr)}
    (hA : ls.els = A ++ B) {n q t : Ptr} {a : Nat} {σi' : Sg V} (hm : Made copy ns.i σi t q σi') :
    Linked (upd σo s (some ⟨ls.alloc, A ++ ⟨n, q, a⟩ :: B⟩)) σi' := by
  have key : ∀ u lu e, upd σo s (some ⟨ls.alloc, A ++ ⟨n, q, a⟩ :: B⟩) u = some lu → e ∈ lu.els →
      e = ⟨n, q, a⟩ ∨ ∃ u' lu', σo u' = some lu' ∧ e ∈ lu'.els := by
    intro u lu e hu he
    rw [upd_apply] at hu; split at hu
    · cases hu
      simp only [List.mem_append, List.mem_cons] at he
      rcases he with h1 | h1 | h1
      · exact .inr ⟨s, ls, hs, by rw [hA]; simp [h1]⟩
      · exact .inl h1
      · exact .inr ⟨s, ls, hs, by rw [hA]; simp [h1]⟩
    · exact .inr ⟨u, lu, hu, he⟩
  refine ⟨?_, ?_⟩
  · intro u lu e hu he
    rcases key u lu e hu he with rfl | ⟨u', lu', hu', he'⟩
    · exact hm.some
    · exact hm.keep (h.link.alive u' lu' e hu' he')
  · intro u lu e v lv f hu he hv hf hef
    rcases key u lu e hu he with rfl | ⟨u', lu', hu', he'⟩ <;> rcases key v lv f hv hf with rfl | ⟨v', lv', hv', hf'⟩
    · rfl
    · exact absurd (hef ▸ hm.none) (h.link.alive v' lv' f hv' hf')
    · exact absurd (hef ▸ hm.none) (h.link.alive u' lu' e hu' he')
    · exact h.link.inj _ _ _ _ _ _ hu' he' hv' hf' hef

theorem J.insert {copy : Bool} (h : J ns σo σi) {s : Ptr} {ls : Lst Ptr} (hs : σo s = some ls) {A B : List (El Ptr)}
    (hA : ls.els = A ++ B) {n q t : Ptr} {σi' : Sg V} (hm : Made copy ns.i σi t q σi')
    (ho : Inv ns'.o (upd σo s (some ⟨ls.alloc, A ++ ⟨n, q, ls.alloc⟩ :: B⟩))) (hi : Inv ns'.i σi') :
    J ns' (upd σo s (some ⟨ls.alloc, A ++ ⟨n, q, ls.alloc⟩ :: B⟩)) σi' := by
  refine ⟨ho, h.oo.set ?_, hi, hm.own h.io, h.link_insert hs hA hm⟩
  intro e he
  have := h.oo s ls hs; rw [hA] at this
  simp only [List.mem_append, List.mem_cons] at he this
  rcases he with h1 | rfl | h1
  · exact this e (.inl h1)
  · rfl
  · exact this e (.inr h1)

theorem sim_insert (h : J ns σo σi) (he : ns.o.err = none) {copy : Bool} {s pos t : Ptr}
    (hv : Valid ns (.insert copy s pos t)) :
    wp (exec (.insert copy s pos t)) ns (NPost ns (abs σo) (abs σi) (.insert copy s pos t)) := by
  obtain ⟨ha, hp, hb⟩ := hv
  obtain ⟨ls, hs⟩ := (alive_iff h.o).1 ha
  obtain ⟨lt, ht⟩ := (alive_iff h.i).1 hb
  obtain ⟨A, B, hA, rfl⟩ := (isPos_iff h.o hs).1 hp
  have hs2 : abs σo s = some (ls.alloc, view A ++ view B) := by rw [abs_some hs, hA, view_append]
  unfold exec; simp only [wp_bind]
  refine wp_emplace h.o hs hA h.i ht he ?_ ?_
  · intro ns' herr hadv hheap hsp h' hadvi hi' hng
    refine NPost.mk' ⟨h', h.oo, hi', h.io, h.link⟩ hadv hadvi ?_ (fun g1 g2 => ?_)
    · refine ⟨_, _, _, hs2, (posOf_view s B).symm, ?_⟩
      rw [herr]; exact ⟨rfl, rfl, rfl⟩
    · rcases hng with h1 | h1
      · exact absurd g2 h1
      · exact absurd g1 h1
  · intro ns' n q σi' herr hadv hsp hn h' hm hadvi hi'
    refine NPost.mk' (h.insert hs hA hm h' hi') hadv hadvi ?_ (fun _ _ => herr)
    refine ⟨_, _, _, hs2, (posOf_view s B).symm, ?_⟩
    rw [isSome_none herr]
    exact ⟨n, q, unused h.o hn, rfl, by rw [abs_upd]; simp, made_spec h.i hi' hm⟩

theorem sim_pushBack (h : J ns σo σi) (he : ns.o.err = none) {copy : Bool} {s t : Ptr}
    (hv : Valid ns (.pushBack copy s t)) :
    wp (exec (.pushBack copy s t)) ns (NPost ns (abs σo) (abs σi) (.pushBack copy s t)) := by
  obtain ⟨ha, hb⟩ := hv
  obtain ⟨ls, hs⟩ := (alive_iff h.o).1 ha
  obtain ⟨lt, ht⟩ := (alive_iff h.i).1 hb
  unfold exec; simp only [wp_bind]
  refine wp_pushBack h.o hs h.i ht he ?_ ?_
  · intro ns' herr hadv hheap hsp h' hadvi hi' hng
    refine NPost.mk' ⟨h', h.oo, hi', h.io, h.link⟩ hadv hadvi ?_ (fun g1 g2 => ?_)
    · refine ⟨_, _, abs_some hs, ?_⟩
      rw [herr]; exact ⟨rfl, rfl⟩
    · rcases hng with h1 | h1
      · exact absurd g2 h1
      · exact absurd g1 h1
  · intro ns' n q σi' herr hadv hsp hn h' hm hadvi hi'
    refine NPost.mk' (h.insert hs (A := ls.els) (B := []) (by simp) hm h' hi') hadv hadvi ?_ (fun _ _ => herr)
    refine ⟨_, _, abs_some hs, ?_⟩
    rw [isSome_none herr]
    exact ⟨n, q, unused h.o hn, by rw [abs_upd]; simp, made_spec h.i hi' hm⟩

theorem sim_pushFront (h : J ns σo σi) (he : ns.o.err = none) {copy : Bool} {s t : Ptr}
    (hv : Valid ns (.pushFront copy s t)) :
    wp (exec (.pushFront copy s t)) ns (NPost ns (abs σo) (abs σi) (.pushFront copy s t)) := by
  obtain ⟨ha, hb⟩ := hv
  obtain ⟨ls, hs⟩ := (alive_iff h.o).1 ha
  obtain ⟨lt, ht⟩ := (alive_iff h.i).1 hb
  unfold exec; simp only [wp_bind]
  refine wp_pushFront h.o hs h.i ht he ?_ ?_
  · intro ns' herr hadv hheap hsp h' hadvi hi' hng
    refine NPost.mk' ⟨h', h.oo, hi', h.io, h.link⟩ hadv hadvi ?_ (fun g1 g2 => ?_)
    · refine ⟨_, _, abs_some hs, ?_⟩
      rw [herr]; exact ⟨rfl, rfl⟩
    · rcases hng with h1 | h1
      · exact absurd g2 h1
      · exact absurd g1 h1
  · intro ns' n q σi' herr hadv hsp hn h' hm hadvi hi'
    refine NPost.mk' (h.insert hs (A := []) (B := ls.els) rfl hm h' hi') hadv hadvi ?_ (fun _ _ => herr)
    refine ⟨_, _, abs_some hs, ?_⟩
    rw [isSome_none herr]
    exact ⟨n, q, unused h.o hn, by rw [abs_upd]; simp, made_spec h.i hi' hm⟩

/-! ### Deep copy -/

theorem zip_view {l m : List (El Ptr)} {x : (Ptr × Ptr) × (Ptr × Ptr)} (hx : x ∈ (view l).zip (view m)) :
    ∃ y ∈ l.zip m, x = ((y.1.p, y.1.v), (y.2.p, y.2.v)) := by
  unfold view at hx
  rw [List.zip_map, List.mem_map] at hx
  obtain ⟨y, hy, rfl⟩ := hx
  exact ⟨y, hy, rfl⟩

theorem zip_take {α β : Type} {l : List α} {m : List β} : (l.take m.length).zip m = l.zip m := by
  induction m generalizing l with
  | nil => simp
  | cons b m ih => cases l with
    | nil => simp
    | cons a l => simp [ih]

theorem sim_copy (h : J ns σo σi) (he : ns.o.err = none) {s t : Ptr} (hv : Valid ns (.copy s t)) :
    wp (exec (.copy s t)) ns (NPost ns (abs σo) (abs σi) (.copy s t)) := by
  obtain ⟨ha, hb, has, hst⟩ := hv
  obtain ⟨ls, hs⟩ := (alive_iff h.o).1 ha
  obtain ⟨lt, ht⟩ := (alive_iff h.o).1 hb
  unfold exec; simp only [wp_bind]
  refine wp_copyNothrow h.o hs ht hst (own_default h.o h.oo hs has) he h.i h.io (els_alive h ht) (els_alive h hs)
    (h.link.nodup h.o.st hs) ?_
  intro ns' k N σi' hadv hadd h' hadvi hi' ho'
  have hnew : ∀ e ∈ N, e.v ∉ ls.els.map El.v := by
    intro e hm hc
    obtain ⟨f, hf, hfe⟩ := List.mem_map.1 hc
    exact els_alive h hs f hf (hfe ▸ (hadd.deep.new hm).1)
  have hold : ∀ u lu e, σo u = some lu → e ∈ lu.els → e.v ∉ N.map El.v := by
    intro u lu e hu hm hc
    obtain ⟨f, hf, hfe⟩ := List.mem_map.1 hc
    exact h.link.alive u lu e hu hm (hfe ▸ (hadd.deep.new hf).1)
  have key : ∀ u lu e, upd σo s (some ⟨ls.alloc, N⟩) u = some lu → e ∈ lu.els →
      (u = s ∧ e ∈ N) ∨ (u ≠ s ∧ σo u = some lu) := by
    intro u lu e hu hm
    rw [upd_apply] at hu; split at hu
    · cases hu; exact .inl ⟨by assumption, hm⟩
    · exact .inr ⟨by assumption, hu⟩
  have hlink : Linked (upd σo s (some ⟨ls.alloc, N⟩)) (without σi' (ls.els.map El.v)) := by
    refine ⟨?_, ?_⟩
    · intro u lu e hu hm
      unfold without
      rcases key u lu e hu hm with ⟨rfl, hN⟩ | ⟨hus, hu'⟩
      · rw [if_neg (hnew e hN)]; exact (hadd.deep.new hN).2
      · rw [if_neg, hadd.deep.same _ (hold u lu e hu' hm)]
        · exact h.link.alive u lu e hu' hm
        · intro hc
          obtain ⟨f, hf, hfe⟩ := List.mem_map.1 hc
          have := h.link.inj s ls f u lu e hs hf hu' hm hfe
          exact h.o.st.disj u s lu ls hu' hs hus _ (mem_ptrs_of hm) (this ▸ mem_ptrs_of hf)
    · intro u lu e v lv f hu hm hv hf hef
      rcases key u lu e hu hm with ⟨rfl, hN⟩ | ⟨hus, hu'⟩ <;> rcases key v lv f hv hf with ⟨hvs, hN'⟩ | ⟨hvs, hv'⟩
      · have := hadd.deep.nodup
        obtain ⟨i, hi, rfl⟩ := List.getElem_of_mem hN
        obtain ⟨j, hj, rfl⟩ := List.getElem_of_mem hN'
        have h1 : (N.map El.v)[i]'(by simpa using hi) = (N.map El.v)[j]'(by simpa using hj) := by simpa using hef
        have := (List.getElem_inj this).1 h1
        subst this; rfl
      · exact absurd (List.mem_map_of_mem hN) (hef ▸ hold v lv f hv' hf)
      · exact absurd (List.mem_map_of_mem hN') (hef ▸ hold u lu e hu' hm)
      · exact h.link.inj _ _ _ _ _ _ hu' hm hv' hf hef
  refine NPost.mk' ⟨h', h.oo.set hadd.own, hi', ho'.without _, hlink⟩ hadv hadvi ?_ hadd.good
  refine ⟨ls.alloc, view ls.els, lt.alloc, view lt.els, k, view N, abs_some hs, abs_some ht, ?_, ?_, ?_, ?_, ?_, ?_,
    abs_upd _ _, ?_, ?_⟩
  · rw [length_view]; exact hadd.le
  · rw [length_view]
    constructor
    · intro hc; exact hadd.fail (by rwa [Option.isSome_iff_ne_none] at hc)
    · intro hc
      rw [Option.isSome_iff_ne_none]
      intro h0; have := hadd.ok h0; omega
  · rw [length_view]; exact hadd.len
  · rw [view_fst]; exact h'.st.nodup s _ (upd_same _ _ _)
  · intro x hx
    obtain ⟨e, hm, rfl⟩ := mem_view.1 hx
    exact unused h.o (hadd.fresh e hm)
  · rw [view_snd]; exact hadd.deep.nodup
  · intro x hx
    obtain ⟨y, hy, rfl⟩ := zip_view hx
    have hy2 : y ∈ (lt.els.take k).zip N := by rw [← hadd.len, zip_take]; exact hy
    have hyN : y.2 ∈ N := (List.of_mem_zip hy).2
    obtain ⟨h1, l1, lq, h2, h3, h4, h5, h6⟩ := hadd.deep.copies y hy2
    have h3' : without σi' (ls.els.map El.v) y.2.v = some lq := by
      unfold without; rw [if_neg (hnew _ hyN)]; exact h3
    refine ⟨abs_none.2 h1, l1.alloc, view l1.els, view lq.els, abs_some h2, ⟨?_, ?_, ?_⟩, ?_⟩
    · rw [view_snd, view_snd]; exact h5
    · rw [view_fst]; exact hi'.st.nodup _ _ h3'
    · intro z hz
      obtain ⟨f, hf, rfl⟩ := mem_view.1 hz
      exact unused h.i (h6 f hf)
    · rw [abs_some h3', h4]
  · intro q hq
    rw [view_snd] at hq
    rw [abs_without, view_snd]
    unfold Gone; split
    · rfl
    · unfold abs; rw [hadd.deep.same q hq]

/-! ### All calls -/

theorem sim_outer (h : J ns σo σi) (he : ns.o.err = none) {c : Call Ptr} (hv : Valid ns (.outer c)) :
    wp (exec (.outer c)) ns (NPost ns (abs σo) (abs σi) (.outer c)) := by
  unfold exec
  rw [wp_onO]
  refine wp_mono (LC.exec_sim h.o h.oo he hv.2) ?_
  rintro r o' ⟨A', hsp, ⟨σo', h1, h2, rfl⟩, ⟨k, hadv⟩, hg⟩
  refine NPost.mk' ⟨h1, h2, h.i, h.io, ?_⟩ hadv (Adv.refl _ 0) ⟨hsp, rfl⟩ (fun g _ => hg g)
  rw [linked_iff]
  have hl := linked_iff.1 h.link
  have hsub := structural_sub hv.1 hsp
  refine hl.mono hsub ?_
  intro s a L x hs hx
  obtain ⟨t, b, M, ht, hx'⟩ := hsub s a L x hs hx
  exact hl.alive t b M x ht hx'

theorem valid_setErr {w : W V} {σ : Sg V} (h : Inv w σ) {c : Call V} (hv : LC.Valid w c) : LC.Valid (setErr w none) c :=
  valid_ready h hv

theorem sim_inner (h : J ns σo σi) (he : ns.o.err = none) {c : Call V} (hv : Valid ns (.inner c)) :
    wp (exec (.inner c)) ns (NPost ns (abs σo) (abs σi) (.inner c)) := by
  unfold exec
  rw [wp_onI, he]
  refine wp_mono (LC.exec_sim (h.i.setErr none) h.io rfl (valid_setErr h.i hv.1)) ?_
  rintro r i' ⟨A', hsp, ⟨σi', h1, h2, rfl⟩, ⟨k, hadv⟩, hg⟩
  refine NPost.mk' (ns' := ⟨setErr ns.o i'.err, i'⟩) (σo := σo) (σi := σi') ⟨h.o.setErr _, h.oo, h1, h2, ?_⟩
    ((Adv.refl _ 0).toErr _) hadv.ofErr ⟨hsp, rfl⟩ (fun _ g => hg (g.setErr _))
  refine ⟨?_, h.link.inj⟩
  intro s ls e hs hm
  have := inner_keep hsp (q := e.v) ?_ (by rw [Ne, abs_none]; exact h.link.alive s ls e hs hm)
  · rwa [Ne, abs_none] at this
  · rintro p hp rfl
    exact hv.2 _ hp ((isElem_iff h).2 ⟨s, ls, e, hs, hm, rfl⟩)

theorem exec_sim (h : J ns σo σi) (he : ns.o.err = none) {c : NCall V} (hv : Valid ns c) :
    wp (exec c) ns (NPost ns (abs σo) (abs σi) c) := by
  cases c with
  | outer c => exact sim_outer h he hv
  | inner c => exact sim_inner h he hv
  | insert b s pos t => exact sim_insert h he hv
  | pushBack b s t => exact sim_pushBack h he hv
  | pushFront b s t => exact sim_pushFront h he hv
  | erase s pos => exact sim_erase h he hv
  | popBack s => exact sim_popBack h he hv
  | popFront s => exact sim_popFront h he hv
  | clear s => exact sim_clear h he hv
  | copy d s => exact sim_copy h he hv
  | moveAssign s t => exact sim_moveAssign h he hv
  | destroy s => exact sim_destroy h he hv

end Nestl.NL
