import Verif.Proofs.RestoreVerify
/-! A chunk that passes the check is a part of the expected tree. -/

set_option autoImplicit false

namespace Verif.Jmt
open VTree Verif.Spec
variable {D : Type}

theorem Key.le_of_lt {a b : Key} (h : a < b) : a ≤ b := fun h' => List.lt_asymm (show a.bytes < b.bytes from h) h'

theorem Key.not_le_of_lt {a b : Key} (h : a < b) : ¬ b ≤ a := fun h' => h' h

/-- Two different keys part at some bit. -/
theorem Key.parts {a k : Key} (h : a ≠ k) : ∃ i, i < 256 ∧ agreeTo i a k = true ∧ a.bit i ≠ k.bit i := by
  have hex : ∃ i, i < 256 ∧ a.bit i ≠ k.bit i := by
    by_contra hn
    apply h
    apply Key.ext_bit
    intro j hj
    by_contra hne
    exact hn ⟨j, hj, hne⟩
  obtain ⟨i, hi, hne⟩ := hex
  induction i using Nat.strongRecOn with
  | ind i ih =>
    by_cases hag : agreeTo i a k = true
    · exact ⟨i, hi, hag, hne⟩
    · rw [agreeTo_iff] at hag
      have : ∃ j, j < i ∧ a.bit j ≠ k.bit j := by
        by_contra hn
        apply hag
        intro j hj
        by_contra hne
        exact hn ⟨j, hj, hne⟩
      obtain ⟨j, hj, hne'⟩ := this
      exact ih j hj (by omega) hne'

theorem eq_of_nodup_fst {E : List (Key × D)} (hE : (E.map Prod.fst).Nodup) {a b : Key × D} (ha : a ∈ E) (hb : b ∈ E) (h : a.1 = b.1) : a = b := by
  induction E with
  | nil => cases ha
  | cons x E ih =>
    rw [List.map_cons, List.nodup_cons] at hE
    rcases List.mem_cons.1 ha with h1 | h1 <;> rcases List.mem_cons.1 hb with h2 | h2
    · rw [h1, h2]
    · exact absurd (List.mem_map.2 ⟨b, h2, by rw [← h, h1]⟩) hE.1
    · exact absurd (List.mem_map.2 ⟨a, h1, by rw [h, h2]⟩) hE.1
    · exact ih hE.2 h1 h2

theorem agreeTo_mono {i j : Nat} {a b : Key} (h : agreeTo j a b = true) (hij : i ≤ j) : agreeTo i a b = true := by
  rw [agreeTo_iff] at h ⊢
  intro t ht
  exact h t (by omega)

theorem agreeTo_symm {i : Nat} {a b : Key} (h : agreeTo i a b = true) : agreeTo i b a = true := by
  rw [agreeTo_iff] at h ⊢
  intro t ht
  exact (h t ht).symm

theorem offPath_agree {k : Key} {i : Nat} (hi : i < 256) {E : List (Key × D)} (hE : (E.map Prod.fst).Nodup) : Agree (255 - i) (offPath k i E) := by
  refine ⟨(List.filter_sublist.map _).nodup hE, ?_⟩
  intro e he e' he' j hj
  unfold offPath at he he'
  rw [List.mem_filter, Bool.and_eq_true, bne_iff_ne] at he he'
  by_cases hji : j < i
  · rw [agreeTo_iff.1 he.2.1 j hji, agreeTo_iff.1 he'.2.1 j hji]
  · have : j = i := by omega
    subst this
    have h1 := he.2.2
    have h2 := he'.2.2
    revert h1 h2
    cases e.1.bit j <;> cases e'.1.bit j <;> cases k.bit j <;> simp

/-- The heart of the check: the entries received are those of the expected tree up to the last key. -/
theorem range_sound (H : Hasher D) (k : Key) (vh : D) {E : List (Key × D)} (hE : (E.map Prod.fst).Nodup) (hle : ∀ e ∈ E, e.1 ≤ k)
    (hk : (k, vh) ∈ E) (hc : NoPlaceholder H (smtInputs H 256 E)) (sibs : List D) (n : Nat) (hn : n ≤ 256) {l : List (Key × D)} (hl : Agree n l)
    (hlk : ∀ e ∈ l, agreeTo (256 - n) e.1 k = true) (hs : sibs.length ≤ n)
    (hleft : ∀ i, i < sibs.length → k.bit (256 - n + i) = true → sibs[i]? = some (sibling H k E (256 - n + i)))
    (hrest : ∀ i, 256 - n + sibs.length ≤ i → i < 256 → k.bit i = true → sibling H k E i = H.placeholder)
    (hclimb : climb H sibs (k.bits.drop (256 - n)) (H.leaf k vh) = smt H n l) :
    (∀ e, (e ∈ E ∧ agreeTo (256 - n) e.1 k = true) ↔ (e ∈ l ∧ e.1 ≤ k)) ∨
    Clash H (climbInputs H sibs (k.bits.drop (256 - n)) (H.leaf k vh) ++ smtInputs H 256 E ++ [.leaf k vh]) (smtInputs H n l) := by
  classical
  induction sibs generalizing n l with
  | nil =>
    have hclimb : H.leaf k vh = smt H n l := by
      have : climb H [] (k.bits.drop (256 - n)) (H.leaf k vh) = H.leaf k vh := by unfold climb; rfl
      rw [← this]; exact hclimb
    rcases list_cases l with rfl | ⟨⟨k', h'⟩, rfl⟩ | h2
    · right
      rw [smt_nil] at hclimb
      exact .inr ⟨.leaf k vh, by simp, hclimb⟩
    · rw [smt_single] at hclimb
      by_cases heq : (k', h') = (k, vh)
      · left
        cases heq
        intro e
        rw [List.mem_singleton]
        constructor
        · rintro ⟨he, ha⟩
          by_cases hek : e.1 = k
          · have : e = (k, vh) := by
              exact eq_of_nodup_fst hE he hk hek
            subst this
            exact ⟨rfl, fun h => Key.lt_irrefl _ h⟩
          · exfalso
            obtain ⟨i, hi, h1, h2⟩ := Key.parts hek
            have hin : 256 - n ≤ i := by
              by_contra hlt
              exact h2 (agreeTo_iff.1 ha i (by omega))
            have hbit : k.bit i = true := by
              by_contra hf
              have hkf : k.bit i = false := by simpa using hf
              have hef : e.1.bit i = true := by rw [hkf] at h2; simpa using h2
              exact hle e he (lt_of_leaves_left hi (agreeTo_symm h1) hkf hef)
            have hp := hrest i (by simpa using hin) hi hbit
            unfold sibling at hp
            have hoff := (smt_eq_placeholder (fun h0 => by
              have := offPath_agree (k := k) hi hE
              rw [h0] at this
              exact this.zero) (hc.mono (sibling_inputs H k E hi))).1 hp
            have : e ∈ offPath k i E := by
              unfold offPath
              rw [List.mem_filter, Bool.and_eq_true, bne_iff_ne]
              exact ⟨he, h1, h2⟩
            rw [hoff] at this; cases this
        · rintro ⟨rfl, _⟩
          exact ⟨hk, by rw [agreeTo_iff]; intros; rfl⟩
      · right
        left
        refine ⟨.leaf k vh, by simp, .leaf k' h', by simp, ?_, hclimb⟩
        intro hcon
        cases hcon
        exact heq rfl
    · cases n with
      | zero => have := hl.zero; omega
      | succ n =>
        right
        rw [smt_two H n l h2] at hclimb
        rw [smtInputs_two H n l h2]
        exact .inl ⟨.leaf k vh, by simp, _, List.mem_cons_self, by simp, hclimb⟩
  | cons s sibs ih =>
    obtain ⟨n, rfl⟩ : ∃ m, n = m + 1 := ⟨n - 1, by simp at hs; omega⟩
    have hdb := drop_bits k n (by omega)
    have e1 : 256 - n = 256 - (n + 1) + 1 := by omega
    have e2 : 255 - (256 - (n + 1)) = n := by omega
    have hi : 256 - (n + 1) < 256 := by omega
    generalize hI : 256 - (n + 1) = i at *
    rw [hdb] at hclimb ⊢
    have hbin : ∀ x, (∃ y ∈ smtInputs H (n + 1) l, x ≠ y ∧ x.digest H = y.digest H) → x ∈ climbInputs H (s :: sibs) (k.bit i :: k.bits.drop (256 - n)) (H.leaf k vh) →
        Clash H (climbInputs H (s :: sibs) (k.bit i :: k.bits.drop (256 - n)) (H.leaf k vh) ++ smtInputs H 256 E ++ [.leaf k vh]) (smtInputs H (n + 1) l) := by
      rintro x ⟨y, hy, hne, hd⟩ hx
      exact .inl ⟨x, by simp [hx], y, hy, hne, hd⟩
    have htop : ∃ x ∈ climbInputs H (s :: sibs) (k.bit i :: k.bits.drop (256 - n)) (H.leaf k vh), x.digest H = smt H (n + 1) l ∧
        x = if k.bit i then .node s (climb H sibs (k.bits.drop (256 - n)) (H.leaf k vh)) else .node (climb H sibs (k.bits.drop (256 - n)) (H.leaf k vh)) s := by
      refine ⟨_, by unfold climbInputs; exact List.mem_cons_self, ?_, rfl⟩
      rw [← hclimb]
      have : climb H (s :: sibs) (k.bit i :: k.bits.drop (256 - n)) (H.leaf k vh) =
        if k.bit i then H.node s (climb H sibs (k.bits.drop (256 - n)) (H.leaf k vh)) else H.node (climb H sibs (k.bits.drop (256 - n)) (H.leaf k vh)) s := rfl
      rw [this]
      cases k.bit i <;> rfl
    obtain ⟨x, hx, hxd, hxe⟩ := htop
    rcases list_cases l with rfl | ⟨⟨k', h'⟩, rfl⟩ | h2
    · right
      rw [smt_nil] at hxd
      exact .inr ⟨x, by simp [hx], hxd⟩
    · right
      apply hbin x _ hx
      refine ⟨.leaf k' h', by simp, ?_, by rw [hxd, smt_single]; rfl⟩
      rw [hxe]; cases k.bit i <;> simp
    · by_cases hxy : x = .node (smt H n (l.filter (fun e => !e.1.bit i))) (smt H n (l.filter (fun e => e.1.bit i)))
      swap
      · right
        apply hbin x _ hx
        rw [smtInputs_two H n l h2, hI]
        refine ⟨_, List.mem_cons_self, hxy, ?_⟩
        rw [hxd, smt_two H n l h2, hI]; rfl
      have A0 := hl.left
      have A1 := hl.right
      rw [hI] at A0 A1
      have hin0 : ∀ y ∈ smtInputs H n (l.filter (fun e => !e.1.bit i)), y ∈ smtInputs H (n + 1) l := by
        intro y hy; rw [smtInputs_two H n l h2, hI]; exact List.mem_cons_of_mem _ (List.mem_append_left _ hy)
      have hin1 : ∀ y ∈ smtInputs H n (l.filter (fun e => e.1.bit i)), y ∈ smtInputs H (n + 1) l := by
        intro y hy; rw [smtInputs_two H n l h2, hI]; exact List.mem_cons_of_mem _ (List.mem_append_right _ hy)
      have hcin : ∀ y ∈ climbInputs H sibs (k.bits.drop (256 - n)) (H.leaf k vh) ++ smtInputs H 256 E ++ [.leaf k vh],
          y ∈ climbInputs H (s :: sibs) (k.bit i :: k.bits.drop (256 - n)) (H.leaf k vh) ++ smtInputs H 256 E ++ [.leaf k vh] := by
        intro y hy
        rw [List.append_assoc, List.mem_append] at hy ⊢
        rcases hy with hy | hy
        · left; unfold climbInputs; exact List.mem_cons_of_mem _ hy
        · exact .inr hy
      have ihl : ∀ j, j < sibs.length → k.bit (256 - n + j) = true → sibs[j]? = some (sibling H k E (256 - n + j)) := by
        intro j hj hb
        have e : 256 - n + j = i + (j + 1) := by omega
        rw [e] at hb ⊢
        have := hleft (j + 1) (by simp; omega) hb
        simpa using this
      have ihr : ∀ j, 256 - n + sibs.length ≤ j → j < 256 → k.bit j = true → sibling H k E j = H.placeholder := by
        intro j hj
        exact hrest j (by simp; omega)
      have hsl : sibs.length ≤ n := by simpa using hs
      have hself : ∀ e : Key × D, agreeTo (256 - n) e.1 k = true ↔ agreeTo i e.1 k = true ∧ e.1.bit i = k.bit i := by
        intro e; rw [e1, agreeTo_succ, Bool.and_eq_true, beq_iff_eq]
      cases hbit : k.bit i with
      | true =>
        rw [hbit] at hxe hcin
        rw [hxe] at hxy
        simp only [if_true, HashInput.node.injEq] at hxy
        have hsib := hleft 0 (by simp) (by simpa using hbit)
        simp only [List.getElem?_cons_zero, Option.some.injEq, Nat.add_zero] at hsib
        rcases ih n (by omega) A1 (by
          intro e he
          rw [List.mem_filter] at he
          rw [hself, hbit]; exact ⟨hlk e he.1, he.2⟩) hsl ihl ihr hxy.2 with hr | hcl
        · have hbnd : smt H n (offPath k i E) = smt H n (l.filter (fun e => !e.1.bit i)) := by
            rw [← hxy.1, hsib, sibling, e2]
          have hoa := offPath_agree (k := k) hi hE
          rw [e2] at hoa
          rcases smt_binding H n hoa A0 hbnd with hb | hcl
          · left
            intro e
            have h1 := hr e
            have h2 := hb e
            rw [List.mem_filter] at h1 h2
            unfold offPath at h2
            rw [List.mem_filter, Bool.and_eq_true, bne_iff_ne, hbit] at h2
            rw [hself, hbit] at h1
            cases heb : e.1.bit i with
            | true =>
              rw [heb] at h1
              simpa using h1
            | false =>
              rw [heb] at h2
              simp only [ne_eq, Bool.false_eq_true, not_false_eq_true, and_true, Bool.not_false] at h2
              rw [h2]
              constructor
              · intro hel
                exact ⟨hel, Key.le_of_lt (lt_of_leaves_left hi (hlk e hel) heb hbit)⟩
              · exact fun h => h.1
          · right
            refine hcl.mono ?_ hin0
            intro y hy
            have := sibling_inputs H k E hi y (by rw [e2]; exact hy)
            simp [this]
        · right
          exact hcl.mono hcin hin1
      | false =>
        rw [hbit] at hxe hcin
        rw [hxe] at hxy
        simp only [Bool.false_eq_true, if_false, HashInput.node.injEq] at hxy
        rcases ih n (by omega) A0 (by
          intro e he
          rw [List.mem_filter] at he
          rw [hself, hbit]; exact ⟨hlk e he.1, by simpa using he.2⟩) hsl ihl ihr hxy.1 with hr | hcl
        · left
          intro e
          have h1 := hr e
          rw [List.mem_filter, hself, hbit] at h1
          cases heb : e.1.bit i with
          | false =>
            rw [heb] at h1
            simpa using h1
          | true =>
            constructor
            · rintro ⟨he, ha⟩
              exact absurd (lt_of_leaves_left hi (agreeTo_symm ha) hbit heb) (hle e he)
            · rintro ⟨he, ha⟩
              exact absurd (lt_of_leaves_left hi (agreeTo_symm (hlk e he)) hbit heb) ha
        · right
          exact hcl.mono hcin hin0

/-- The check as a whole. -/
theorem ChunkChecked.sound {H : Hasher D} {k : Key} {vh : D} {E L : List (Key × D)} {right sibs : List D}
    (h : ChunkChecked H E k vh (smtRoot H L) right sibs) (hE : (E.map Prod.fst).Nodup) (hle : ∀ e ∈ E, e.1 ≤ k)
    (hk : (k, vh) ∈ E) (hc : NoPlaceholder H (smtInputs H 256 E)) (hL : (L.map Prod.fst).Nodup) :
    (∀ e, e ∈ E ↔ e ∈ L ∧ e.1 ≤ k) ∨
    Clash H (climbInputs H sibs k.bits (H.leaf k vh) ++ smtInputs H 256 E ++ [.leaf k vh]) (smtInputs H 256 L) := by
  have := range_sound H k vh hE hle hk hc sibs 256 (Nat.le_refl _) (agree_top hL) (by intro e _; rfl) h.len
    (by intro i hi hb; rw [Nat.sub_self, Nat.zero_add] at hb ⊢; exact h.asm.left i hi hb)
    (by intro i hi h2 hb; exact h.rest i (by omega) h2 hb)
    (by rw [Nat.sub_self, List.drop_zero]; exact h.climb)
  rw [Nat.sub_self, List.drop_zero] at this
  rcases this with h | h
  · left
    intro e
    rw [← h]
    exact ⟨fun he => ⟨he, rfl⟩, fun he => he.1⟩
  · exact .inr h

end Verif.Jmt
