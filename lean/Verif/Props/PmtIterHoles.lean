import Verif.Proofs.PmtIterHoles
import Verif.Props.PmtFault
/-! Iteration over a Patricia trie some of whose nodes are lost, and over a pruning database: C67, C45. -/

set_option autoImplicit false

namespace Verif.Props
open Verif Verif.Pmt PmtEx

variable {K : Keccak}

/-- What the iterator yields: pairs in increasing order of the keys, exactly those of the map that `get` reads. -/
def YieldsReadable (tr : Trie) (d : Db) (m : Spec.Map) : Prop :=
  ∃ l : List (Bytes × Bytes), (∃ N, ∀ fuel, N ≤ fuel → tr.values fuel d = .ok l) ∧ l.Pairwise (fun a b => a.1 < b.1) ∧
    ∀ k v, (k, v) ∈ l ↔ m k = some v ∧ tr.get d k = .ok (some v)

theorem yieldsReadable_of {S : Bytes → Prop} {d : Db} {tr : Trie} {m : Spec.Map} {t : PT} (hF : Faithful K S d) (hok : PT.Ok t (2 ^ 60))
    (hrep : RepRoot K S tr.root t) (ag : Agrees t m) (hsafe : Safe [] t) : YieldsReadable tr d m := by
  have hv := seen_root hF hok hrep [] [] hsafe
  have hsub := left_sublist d tr.root t
  refine ⟨leftOuts d [] tr.root t, Visits.values hv rfl, ?_, ?_⟩
  · refine List.pairwise_map.2 ((List.Pairwise.sublist hsub (entries_sorted t)).imp_of_mem ?_)
    intro a b ha hb hab
    obtain ⟨ka, hka⟩ := ag.keys a.1 (by rw [(mem_entries t a.1 a.2).1 (hsub.subset ha)]; rfl)
    obtain ⟨kb, hkb⟩ := ag.keys b.1 (by rw [(mem_entries t b.1 b.2).1 (hsub.subset hb)]; rfl)
    rw [hka, hkb] at hab
    simp only [List.nil_append, hka, hkb, pack_nibsOf]
    exact lt_of_nibsOf_lt hab
  · intro k v
    constructor
    · intro h
      obtain ⟨⟨x, w⟩, hx, e⟩ := List.mem_map.1 h
      obtain ⟨hx1, hx2⟩ := mem_left.1 hx
      have hx' := (mem_entries t x w).1 hx1
      obtain ⟨k', rfl⟩ := ag.keys x (by rw [hx']; rfl)
      simp only [List.nil_append, pack_nibsOf, Prod.mk.injEq] at e
      obtain ⟨rfl, rfl⟩ := e
      refine ⟨by rw [← ag.get k']; exact hx', ?_⟩
      have := (readable_get hF hok hrep _).1 hx2
      rw [hx'] at this
      unfold Trie.get
      rw [path_eq]
      exact this
    · rintro ⟨h1, h2⟩
      rw [← ag.get k] at h1
      unfold Trie.get at h2
      rw [path_eq] at h2
      exact List.mem_map.2 ⟨(nibsOf k, v), mem_left.2 ⟨(mem_entries t _ _).2 h1, ⟨_, _, h2⟩⟩, by simp [pack_nibsOf]⟩

/-- **C67** for tries without the empty key. After any program on an archive database some of the stored nodes are lost (`st` has what is left).
Iterating any of the tries then still ends without a panic; the pairs come in increasing order of the keys, and they are exactly the pairs of the
map that `get` can still read. For every other key of the map `get` reports the missing node. Otherwise two of the stored byte strings have the
same hash. Missing from the full statement: that the iterator lets the caller know of the loss, which it does not (`C67_silent_false`), and the
empty key together with others (`C45_empty_key_panics`). -/
theorem C67_iterate_lost_partial {ops : List Op} (hfit : ∀ op ∈ ops, Spec.Fits op) {s : Sys} {rs : List Ret}
    (hrun : (Sys.new false).run K ops = .ok (s, rs)) {i : Nat} {tr : Trie} {m : Spec.Map} (htr : s.tries[i]? = some tr)
    (hm : (Spec.run ops).maps[i]? = some m) {st : FMap H256 Bytes} (hst : ∀ h b, st.get h = some b → s.db.storage.get h = some b)
    (he : m [] = none) :
    Spec.Collision K s.db.log ∨ (YieldsReadable tr { s.db with storage := st } m ∧
      ∀ k, tr.get { s.db with storage := st } k = .ok (m k) ∨ tr.get { s.db with storage := st } k = .error (.err "MissingTrieNode")) := by
  rcases collision_or K s.db.log with hc | hc
  · exact .inl hc
  have g := SysInv.new (K := K) (P := False) |>.run hfit (fun p => p.elim) hrun hc
  obtain ⟨_, t, hrep, hok, ag, -⟩ := g.tries.2 i tr m htr hm
  have hd : Holed K { s.db with storage := st } := g.db.holed hst
  have hF : Faithful K (InLog { s.db with storage := st }) { s.db with storage := st } := hd.faithful hc
  have hsafe : Safe [] t := by
    rintro cs v rfl
    have := ag.get []
    rw [he] at this
    cases this
  refine .inr ⟨yieldsReadable_of hF hok hrep ag hsafe, fun k => ?_⟩
  unfold Trie.get
  rw [path_eq, ← ag.get]
  exact getAt_faithful hF hok hrep (hops_ge _)

/-- The hypotheses of the theorem are met: one of the four keys is lost. -/
example : YieldsReadable (handle false faultOps 0) (lossy false) (mapOf faultOps 0) := by
  have h := C67_iterate_lost_partial (i := 0) (m := mapOf faultOps 0) (st := (result false faultOps).1.db.storage.erase lost) faultOps_fits
    (faultOps_run false) (handle_eq (light := false) (ops := faultOps) (i := 0) (by decide +kernel)) (mapOf_eq (by decide)) (by
      intro h b hb
      rw [FMap.get_erase] at hb
      split at hb
      · cases hb
      · exact hb) (by decide +kernel)
  exact (h.resolve_left (by decide +kernel)).1

/-- **C67 is false** in that the loss is not reported: after the loss of a leaf the iterator yields all other pairs and then ends as if they were
all, while `get` reports the missing node for the key left out. -/
theorem C67_silent_false : mapOf faultOps 0 [0x12, 0x34] = some (long 1) ∧
    isMissing ((handle false faultOps 0).get (lossy false) [0x12, 0x34]) = true ∧
    ((handle false faultOps 0).values 200 (lossy false)).toOption
      = some [([0x12, 0x44], long 2), ([0x22], [7]), ([0x22, 0x34], long 3)] := ⟨by decide +kernel, by decide +kernel, by decide +kernel⟩

/-- **C67**, a view whose root node is lost: the iterator ends at once, as if the trie were empty. -/
theorem C67_lost_root_yields_nothing (d : Db) (h : H256) (hd : d.get h = none) (fuel : Nat) (hf : 4 ≤ fuel) :
    (Trie.atRoot h).values fuel d = .ok [] := by
  have hr : recover d h = .ok none := by unfold recover; rw [hd]
  have hy : Yields d 2 (Iter.new (Trie.atRoot h)) [] ⟨[], []⟩ := by
    refine .go (it1 := ⟨[], [(.hash h, .doing)]⟩) rfl (.go (it1 := ⟨[], []⟩) ?_ (.refl _))
    simp only [Iter.round, hr]
  exact hy.collect rfl (by omega) (by simp; omega)

/-- The hypotheses are met: the lost leaf as a root. -/
example : ((Trie.atRoot lost).values 4 (lossy false)).toOption = some [] := by decide +kernel

/-- **C45** on a pruning database, for programs as in `C41_pruning_safe_partial`: iterating the trie yields exactly the pairs of the map, in increasing
order of the keys; or else, after some of the calls on an archive database, two different stored byte strings have the same hash. Missing from the
full statement: programs for which reading itself fails (`C41_absent_removal_false`), and the empty key together with others. -/
theorem C45_pruning_partial {ops : List Op} (hfit : ∀ op ∈ ops, Spec.Fits op) (hg : Spec.GentleFrom (Spec.run [.new]) ops)
    (he : ∀ m, (Spec.run (.new :: ops)).maps = [m] → m [] = none ∨ ∀ k, k ≠ [] → m k = none) :
    (∃ s rs tr m, (Sys.new true).run K (.new :: ops) = .ok (s, rs) ∧ s.tries = [tr] ∧ (Spec.run (.new :: ops)).maps = [m] ∧
      ∃ l : List (Bytes × Bytes), (∃ N, ∀ fuel, N ≤ fuel → tr.values fuel s.db = .ok l) ∧ l.Pairwise (fun a b => a.1 < b.1) ∧
        ∀ k v, (k, v) ∈ l ↔ m k = some v) ∨
    ∃ pre s rs, pre <+: ops ∧ (Sys.new false).run K (.new :: pre) = .ok (s, rs) ∧ Spec.Collision K s.db.log := by
  have hrun : ∀ (light : Bool) (ops : List Op) (s : Sys) (rs : List Ret), ({ Sys.new light with tries := [Trie.new K] } : Sys).run K ops = .ok (s, rs) →
      (Sys.new light).run K (.new :: ops) = .ok (s, .done :: rs) := by
    intro light ops s rs h
    have e : (Sys.new light).step K .new = .ok ({ Sys.new light with tries := [Trie.new K] }, .done) := rfl
    unfold Sys.run
    rw [e]
    simp only [h]
  rcases (Twin.new (P := False)).total hfit hg False.elim (fun a ha => by cases ha) with ⟨sl, sa, rs, h1, h2, h3, -⟩ | ⟨pre, s, rs, h1, h2, h3⟩
  · rcases collision_or K sa.db.log with hc | hc
    · exact .inr ⟨ops, sa, .done :: rs, List.prefix_rfl, hrun _ _ _ _ h2, hc⟩
    obtain ⟨tr, m, g1, g2, g3⟩ := h3.one
    obtain ⟨_, t, hrep, hok, ag, hcn⟩ := h3.inv.tries.2 0 tr m (by rw [g1]; rfl) (by rw [g2]; rfl)
    have hF : Faithful K (InLog sl.db) sl.db := h3.holed.faithful (by rw [h3.log]; exact hc)
    have hsafe : Safe [] t := by
      rintro cs v rfl
      rcases he m g2 with he | he
      · have := ag.get []
        rw [he] at this
        cases this
      · have h0 : m [] = some v := (ag.get []).symm
        have ag' : Agrees (.leaf [] v) m := by
          refine ⟨fun k => ?_, fun x hx => ?_⟩
          · by_cases hk : k = []
            · subst hk; exact h0.symm
            · rw [he k hk]
              have : ([] : List Nib) ≠ nibsOf k := fun e => hk (nibsOf_inj (a := []) e).symm
              simp only [PT.get, if_neg this]
          · by_cases hx0 : x = []
            · subst hx0; exact ⟨[], rfl⟩
            · simp only [PT.get, if_neg (Ne.symm hx0)] at hx
              cases hx
        have := ag.unique ag' (hcn trivial) trivial
        cases this
    have hin : InLog sl.db = InLog sa.db := by
      funext b
      unfold InLog
      rw [h3.log]
    rw [hin] at hF
    obtain ⟨l, hl1, hl2, hl3⟩ := yieldsReadable_of hF hok hrep ag hsafe
    refine .inl ⟨sl, .done :: rs, tr, m, hrun _ _ _ _ h1, by rw [h3.tries, g1], g2, l, hl1, hl2, fun k v => ?_⟩
    rw [hl3]
    refine ⟨fun h => h.1, fun h => ⟨h, ?_⟩⟩
    rw [g3.get k, h]
  · exact .inr ⟨pre, s, .done :: rs, h1, hrun _ _ _ _ h2, not_noClash h3⟩

/-- The hypotheses of the theorem are met. -/
example : ((∀ op ∈ pruneOps, Spec.Fits op) ∧ Spec.GentleFrom (Spec.run [.new]) pruneOps ∧
    ∀ m, (Spec.run (.new :: pruneOps)).maps = [m] → m [] = none) ∧
    ((handle true (.new :: pruneOps) 0).values 200 (result true (.new :: pruneOps)).1.db).toOption
      = some [([0x12, 0x34], long 1), ([0x22, 0x34], long 4)] := by
  refine ⟨⟨?_, pruneOps_gentle, ?_⟩, by decide +kernel⟩
  · intro op hop
    simp only [pruneOps, List.mem_cons, List.not_mem_nil, or_false] at hop
    rcases hop with rfl | rfl | rfl | rfl | rfl | rfl | rfl | rfl <;> simp [Spec.Fits, long]
  · intro m hm
    have e : (Spec.run (.new :: pruneOps)).maps[0]? = some m := by rw [hm]; rfl
    rw [mapOf_eq (ops := .new :: pruneOps) (i := 0) (by decide +kernel)] at e
    rw [← Option.some.inj e]
    decide +kernel

end Verif.Props
