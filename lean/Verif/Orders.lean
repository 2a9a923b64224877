import Verif.BuiltFits
import Verif.MphProb

/-!
# C75: the orders of a hash model do not depend on each other

A hash model has one table for each order, filled from the section of that order only.  So the n-grams of one order, present or not, are answered the same
in models whose other sections differ, that have more or fewer orders, or that were built in pools of another size.
-/

set_option linter.unusedSectionVars false

namespace Tongrams

/-! ## Proofs -/

namespace MphCount
variable {B : Nat}

/-- The two pools hold the same records when both could be filled. -/
theorem buildTable_mem {mem extra mem' extra' : Nat} {h : Mphf (List Byte) B} {c : CompactVector × List (Nat × Nat)} {f : List (List Byte × Nat)}
    {t t' : SVTable (List Byte) B} (e : buildTable mem extra h c f = some (.ok t)) (e' : buildTable mem' extra' h c f = some (.ok t')) : t = t' := by
  unfold buildTable at e e'
  obtain ⟨p, p1, e⟩ := Res.bind_ok_iff e
  obtain ⟨p', p1', e'⟩ := Res.bind_ok_iff e'
  have key : ∀ (mem extra : Nat) (p : Pool Nat), (Pool.new mem extra).loadFrom f = some (.ok p) → p.records = f.filter (fun l => decide (l.1 ≠ [])) := by
    intro mem extra p hp
    rcases Nat.lt_or_ge mem (f.map (·.1.length)).sum with h | h
    · rw [(C40_load_from mem extra f).2 h] at hp; cases hp
    · obtain ⟨q, q1, q2⟩ := (C40_load_from mem extra f).1 h
      rw [q1] at hp; cases hp; exact q2
  rw [key _ _ _ p1] at e
  rw [key _ _ _ p1'] at e'
  rw [e] at e'
  cases e'; rfl

/-- What a built model has for each order. -/
theorem build_at {L : SortLib} {mem extra : Nat} {hs : Nat → Mphf (List Byte) B} {files : List (List (List Byte × Nat))} {m : MphCount B}
    (e : build L mem extra hs files = some (.ok m)) (k : Nat) :
    (files[k]? = none → m.tables[k]? = none) ∧
    ∀ f, files[k]? = some f → ∃ c t, SeqColl.ofValues L (f.map (·.2)) = some c ∧ buildTable mem extra (hs k) c f = some (.ok t) ∧
      m.counts[k]? = some c.1 ∧ m.tables[k]? = some t := by
  unfold build at e
  split at e
  · cases e
  obtain ⟨colls, e1, e⟩ := Res.bind_ok_iff e
  obtain ⟨ts, e2, e⟩ := Res.bind_ok_iff e
  cases e
  have l1 := Res.mapM_length e1
  have l2 := Res.mapM_length e2
  rw [List.length_zipIdx, List.length_zip, l1, Nat.min_self] at l2
  refine ⟨fun h => ?_, fun f hf => ?_⟩
  · rw [List.getElem?_eq_none_iff] at h ⊢
    exact l2 ▸ h
  · have hk := (List.getElem?_eq_some_iff.1 hf).1
    have hc : colls[k]? = some colls[k] := List.getElem?_eq_getElem (by omega)
    have ht : ts[k]? = some ts[k] := List.getElem?_eq_getElem (by omega)
    obtain ⟨f', h1, h2⟩ := Res.mapM_get? e1 k _ hc
    rw [hf] at h1; cases h1
    obtain ⟨p, h3, h4⟩ := Res.mapM_get? e2 k _ ht
    rw [List.getElem?_zipIdx, Nat.zero_add] at h3
    obtain ⟨⟨g, c⟩, h5, rfl⟩ := Option.map_eq_some_iff.1 h3
    obtain ⟨h6, h7⟩ := List.getElem?_zip_eq_some.1 h5
    rw [hf] at h6; cases h6
    rw [hc] at h7; cases h7
    refine ⟨colls[k], ts[k], Res.lift_ok_iff h2, h4, ?_, ht⟩
    show (colls.map (·.1))[k]? = _
    rw [List.getElem?_map, hc]; rfl

end MphCount

/-- The result of an operation, if there is one. -/
private def okOf {α : Type} (x : Res α) : Option α := Option.bind x Except.toOption

private theorem mapM_at {α β : Type} {f : α → Res β} {l : List α} {r : List β} (e : Res.mapM f l = some (.ok r)) (i : Nat) :
    r[i]? = (l[i]?).bind fun a => okOf (f a) := by
  have hl := Res.mapM_length e
  cases h : r[i]? with
  | none =>
    rw [List.getElem?_eq_none_iff] at h
    rw [List.getElem?_eq_none_iff.2 (by omega)]; rfl
  | some b =>
    obtain ⟨a, h1, h2⟩ := Res.mapM_get? e i b h
    rw [h1, Option.bind_some, h2]; rfl

namespace MphProb
variable {F : Type} [FloatArith F] {B : Nat}

theorem buildTable_congr {mem extra : Nat} {h : Mphf (List Byte) B} {ps bs ps' bs' : List (List F)} {pb bb order order' k : Nat}
    (hp : ps[k - 1]? = ps'[k - 1]?) (hb : bs[k - 1]? = bs'[k - 1]?) (ho : k + 1 ≠ order) (ho' : k + 1 ≠ order') (f : List (List Byte × F × F)) :
    buildTable mem extra h ps bs pb bb order k f = buildTable mem extra h ps' bs' pb bb order' k f := by
  unfold buildTable Quant.rankPair
  simp only [if_pos ho, if_pos ho', hp, hb]

/-- What a step of `score` needs from a built model, for an order that is not the last. -/
theorem next_same {fb : FloatBits F} {sort : List F → List F} {negInf default default' unk unk' : F} {mem extra : Nat}
    {hs hs' : Nat → Mphf (List Byte) B} {pb bb : Nat} {data data' : List (List (List Byte × F × F))} {m m' : MphProb F B}
    (e : build fb sort negInf default unk mem extra hs pb bb data = some (.ok m))
    (e' : build fb sort negInf default' unk' mem extra hs' pb bb data' = some (.ok m')) {j : Nat} (hj : 1 ≤ j) (hl : j + 1 < data.length) (hl' : j + 1 < data'.length)
    (hd : data[j]? = data'[j]?) (hh : hs j = hs' j) (text : Mem) : (m.scorer fb text).next j = (m'.scorer fb text).next j := by
  obtain ⟨i, rfl⟩ : ∃ i, j = i + 1 := ⟨j - 1, by omega⟩
  unfold build at e e'
  split at e
  · cases e
  split at e'
  · cases e'
  obtain ⟨⟨ps, bs⟩, e0, e⟩ := Res.bind_ok_iff e
  obtain ⟨⟨ps', bs'⟩, e0', e'⟩ := Res.bind_ok_iff e'
  obtain ⟨f0, -, e⟩ := Res.bind_ok_iff e
  obtain ⟨f0', -, e'⟩ := Res.bind_ok_iff e'
  obtain ⟨t0, -, e⟩ := Res.bind_ok_iff e
  obtain ⟨t0', -, e'⟩ := Res.bind_ok_iff e'
  obtain ⟨ts, e1, e⟩ := Res.bind_ok_iff e
  obtain ⟨ts', e1', e'⟩ := Res.bind_ok_iff e'
  have ht : data.tail[i]? = data'.tail[i]? := by
    rw [List.getElem?_tail, List.getElem?_tail]; exact hd
  have hdl : data.tail.dropLast[i]? = data'.tail.dropLast[i]? := by
    rw [List.getElem?_dropLast, List.getElem?_dropLast, List.length_tail, List.length_tail, if_pos (by omega), if_pos (by omega), ht]
  unfold Quant.codebooks at e0 e0'
  obtain ⟨p, p1, e0⟩ := Res.bind_ok_iff e0
  obtain ⟨b, b1, e0⟩ := Res.bind_ok_iff e0
  obtain ⟨p', p1', e0'⟩ := Res.bind_ok_iff e0'
  obtain ⟨b', b1', e0'⟩ := Res.bind_ok_iff e0'
  cases e0
  cases e0'
  have hps : ps[i]? = ps'[i]? := by rw [mapM_at p1, mapM_at p1', ht]
  have hbs : bs[i]? = bs'[i]? := by rw [mapM_at b1, mapM_at b1', hdl]
  have hts : ts[i]? = ts'[i]? := by
    rw [mapM_at e1, mapM_at e1', List.getElem?_zipIdx, List.getElem?_zipIdx, ht]
    cases data'.tail[i]? with
    | none => rfl
    | some f =>
      simp only [Option.map_some, Option.bind_some, Nat.zero_add]
      rw [← hh, buildTable_congr (k := i + 1) (ps := ps) (bs := bs) (ps' := ps') (bs' := bs') (order := data.length) (order' := data'.length)
        (by simpa using hps) (by simpa using hbs) (by omega) (by omega) f]
  cases e
  cases e'
  have hn : i + 1 ≠ data.length - 1 := by omega
  have hn' : i + 1 ≠ data'.length - 1 := by omega
  funext c x
  show Option.bind ((t0 :: ts)[i + 1]?) _ = Option.bind ((t0' :: ts')[i + 1]?) _
  rw [List.getElem?_cons_succ, List.getElem?_cons_succ, hts]
  refine Option.bind_congr fun t _ => Option.bind_congr fun rank _ => ?_
  unfold Quant.accessAt
  simp only [if_pos hn, if_pos hn', Nat.add_sub_cancel, hps, hbs]

end MphProb

namespace Scorer
variable {K Wd F C : Type} [LogProb F] {S S' : Scorer K Wd F C}

/-- A state of at most `n` words is only looked up in the first orders. -/
theorem loop_same {n : Nat} (h : ∀ j, 1 ≤ j → j ≤ n → S.next j = S'.next j) : ∀ (r : Nat) (l : Loop Wd F C), 1 ≤ l.orderM1 → l.orderM1 + r ≤ n + 1 →
    S.loop r l = S'.loop r l
  | 0, _, _, _ => rfl
  | r + 1, l, h1, h2 => by
    rw [loop, loop]
    refine Option.bind_congr fun x _ => ?_
    rw [h _ h1 (by omega)]
    refine Option.bind_congr fun y _ => ?_
    match y with
    | none => rfl
    | some (p, none, c) => exact loop_same h r _ (by simp) (by simp only; omega)
    | some (p, some b, c) => exact Option.bind_congr fun st _ => loop_same h r _ (by simp) (by simp only; omega)

theorem score_same {n : Nat} (h0 : ∀ k, S.first k = S'.first k) (hu : S.unk = S'.unk) (h : ∀ j, 1 ≤ j → j ≤ n → S.next j = S'.next j)
    (st : PState Wd F) (hst : st.length ≤ n) (k : K) : S.score st k = S'.score st k := by
  unfold score
  rw [h0]
  refine Option.bind_congr fun xf _ => ?_
  obtain ⟨x, f⟩ := xf
  refine Option.bind_congr fun st1 e1 => ?_
  have l1 : st1.length = st.length := by
    unfold PState.addWord at e1
    obtain ⟨c, -, rfl⟩ := Option.map_eq_some_iff.1 e1
    rfl
  match f with
  | some (p, b, c) =>
    refine Option.bind_congr fun st2 e2 => ?_
    have l2 : st2.length = st1.length := by
      unfold PState.addBackoff at e2
      split at e2
      · cases e2; rfl
      · cases e2
    dsimp only
    rw [loop_same h _ _ (by simp) (by simp only; omega)]
  | none => rw [hu]

end Scorer

/-! ## Properties -/

/-- **C75**.  Two hash count models, built from files that agree on the n-grams with `k` spaces (and with the same hash function for them), answer every
n-gram with `k` spaces the same: with the same count if it is in the files, and with the same reading, or the same undefined behaviour, if it is not. -/
theorem C75_counts_of_one_order {B : Nat} {L : SortLib} {mem extra mem' extra' : Nat} {hs hs' : Nat → Mphf (List Byte) B}
    {files files' : List (List (List Byte × Nat))} {m m' : MphCount B}
    (e : MphCount.build L mem extra hs files = some (.ok m)) (e' : MphCount.build L mem' extra' hs' files' = some (.ok m'))
    (gram : List Byte) (hf : files[gram.count 32#8]? = files'[gram.count 32#8]?) (hh : hs (gram.count 32#8) = hs' (gram.count 32#8)) :
    m.lookup gram = m'.lookup gram := by
  have hsp : (32#8 : Byte) = sp := rfl
  rw [hsp] at hf hh
  obtain ⟨a1, a2⟩ := MphCount.build_at e (gram.count sp)
  obtain ⟨b1, b2⟩ := MphCount.build_at e' (gram.count sp)
  unfold MphCount.lookup
  dsimp only
  cases h : files[gram.count sp]? with
  | none => rw [a1 h, b1 (hf ▸ h)]; rfl
  | some f =>
    obtain ⟨c, t, c1, c2, c3, c4⟩ := a2 f h
    obtain ⟨c', t', d1, d2, d3, d4⟩ := b2 f (hf ▸ h)
    rw [c1] at d1; cases d1
    rw [← hh] at d2
    have := MphCount.buildTable_mem c2 d2
    subst this
    rw [c3, c4, d3, d4]

/-- **C75**.  Two hash models of probabilities, built from files with the same unigrams: words have the same probability, backoff and position, and unknown
words the same probability, whatever the other sections and the numbers of bits of the quantisation are. -/
theorem C75_unigrams {F : Type} [FloatArith F] {B : Nat} {fb : FloatBits F} {sort sort' : List F → List F} {negInf negInf' default unk : F} {mem extra : Nat}
    {hs hs' : Nat → Mphf (List Byte) B} {pb bb pb' bb' : Nat} {data data' : List (List (List Byte × F × F))} {m m' : MphProb F B}
    (e : MphProb.build fb sort negInf default unk mem extra hs pb bb data = some (.ok m))
    (e' : MphProb.build fb sort' negInf' default unk mem extra hs' pb' bb' data' = some (.ok m'))
    (hd : data[0]? = data'[0]?) (hh : hs 0 = hs' 0) :
    m.unk = m'.unk ∧ ∀ (text : Mem) (word : ByteRange), (m.scorer fb text).first word = (m'.scorer fb text).first word := by
  unfold MphProb.build at e e'
  split at e
  · cases e
  split at e'
  · cases e'
  obtain ⟨cb, -, e⟩ := Res.bind_ok_iff e
  obtain ⟨cb', -, e'⟩ := Res.bind_ok_iff e'
  obtain ⟨f0, e1, e⟩ := Res.bind_ok_iff e
  obtain ⟨f0', e1', e'⟩ := Res.bind_ok_iff e'
  obtain ⟨t0, e2, e⟩ := Res.bind_ok_iff e
  obtain ⟨t0', e2', e'⟩ := Res.bind_ok_iff e'
  obtain ⟨ts, -, e⟩ := Res.bind_ok_iff e
  obtain ⟨ts', -, e'⟩ := Res.bind_ok_iff e'
  have e1 := Res.lift_ok_iff e1
  have e1' := Res.lift_ok_iff e1'
  rw [List.head?_eq_getElem?] at e1 e1'
  rw [hd, e1'] at e1
  cases e1
  rw [← hh, e2] at e2'
  cases e2'
  cases e
  cases e'
  exact ⟨rfl, fun _ _ => rfl⟩

/-- **C75**.  Two hash models of probabilities, built with the same quantisation from files that agree on the sections of the n-grams of up to `n + 1` words,
none of which is the last section of its model: after a state that holds at most `n` words, every word gets the same score, the same new state and the same
verdict on whether it is unknown. -/
theorem C75_scores_of_short_states {F : Type} [FloatArith F] {B : Nat} {fb : FloatBits F} {sort : List F → List F} {negInf default unk : F} {mem extra : Nat}
    {hs hs' : Nat → Mphf (List Byte) B} {pb bb : Nat} {data data' : List (List (List Byte × F × F))} {m m' : MphProb F B}
    (e : MphProb.build fb sort negInf default unk mem extra hs pb bb data = some (.ok m))
    (e' : MphProb.build fb sort negInf default unk mem extra hs' pb bb data' = some (.ok m'))
    (n : Nat) (hl : n + 1 < data.length) (hl' : n + 1 < data'.length) (hd : ∀ j ≤ n, data[j]? = data'[j]?) (hh : ∀ j ≤ n, hs j = hs' j)
    (text : Mem) (st : PState Nat F) (hst : st.length ≤ n) (word : ByteRange) :
    (m.scorer fb text).score st word = (m'.scorer fb text).score st word := by
  obtain ⟨u1, u2⟩ := C75_unigrams e e' (hd 0 (Nat.zero_le n)) (hh 0 (Nat.zero_le n))
  exact Scorer.score_same (u2 text) u1
    (fun j h1 h2 => MphProb.next_same e e' h1 (by omega) (by omega) (hd j h2) (hh j h2) text) st hst word

/-! Non-vacuity: the example of C26, and the model whose bigrams have other counts. -/
namespace OrdersExample
open MphCountExample (w files files_ok hs hs_built)

/-- The same words, other bigrams. -/
def files2 : List (List (List (List Byte) × Nat)) :=
  [[([w 0], 5), ([w 1], 7), ([w 2], 5)], [([w 1, w 1], 9), ([w 2, w 0], 4), ([w 1, w 2], 4)]]
/-- The hash functions. -/
def hs2 (k : Nat) : Mphf (List Byte) 64 := TextExample.mphf3 ((files2.getD k []).map fun r => joinSp r.1)

theorem files2_ok : Spec.CountLists 100 files2 where
  order_min := by decide
  order_max := by decide
  len := by intro k l h; rcases k with _ | _ | k <;> simp [files2] at h <;> subst h <;> simp
  words := by
    intro f hf r hr v hv
    have : v ∈ [w 0, w 1, w 2] := by
      simp [files2] at hf
      rcases hf with rfl | rfl <;> simp at hr <;> rcases hr with rfl | rfl | rfl <;> simp at hv ⊢ <;> (try rcases hv with rfl | rfl) <;> simp [*]
    simp at this
    rcases this with rfl | rfl | rfl <;> exact ⟨fun b hb => by simp [w] at hb; subst hb; decide, by simp [w]⟩
  nonempty := by intro f hf; simp [files2] at hf; rcases hf with rfl | rfl <;> simp
  counts := by intro f hf; simp [files2] at hf; rcases hf with rfl | rfl <;> simp
  memory := by decide

theorem hs2_built (k : Nat) (f : List (List (List Byte) × Nat)) (h : files2[k]? = some f) : (hs2 k).BuiltFrom (f.map fun r => joinSp r.1) := by
  have hk : k < 2 := (List.getElem?_eq_some_iff.1 h).1
  have hf : files2.getD k [] = f := by rw [List.getD_eq_getElem?_getD, h]; rfl
  unfold hs2
  rw [hf]
  rcases k with _ | _ | k
  · simp [files2] at h; subst h; exact TextExample.built3 rfl (by decide)
  · simp [files2] at h; subst h; exact TextExample.built3 rfl (by decide)
  · omega

/-- Both models can be built, words have the same counts in them (also words that are not in the files), and a bigram need not have. -/
example : ∃ m m', MphCount.build exLib 100 0 hs (Spec.lines files) = some (.ok m) ∧ MphCount.build exLib 100 0 hs2 (Spec.lines files2) = some (.ok m') ∧
    (∀ word, 32#8 ∉ word → m.lookup word = m'.lookup word) ∧ m.lookup (w 1) = some 7 ∧ m'.lookup (w 1) = some 7 ∧
    m.lookup (joinSp [w 1, w 2]) = some 3 ∧ m'.lookup (joinSp [w 1, w 2]) = some 4 := by
  obtain ⟨m, e, h⟩ := C26_stored_gram_returns_its_count exLib_valid (extra := 0) files_ok (.inl rfl) (by decide) hs_built
  obtain ⟨m', e', h'⟩ := C26_stored_gram_returns_its_count exLib_valid (extra := 0) files2_ok (.inl rfl) (by decide) hs2_built
  refine ⟨m, m', e, e', fun word hw => C75_counts_of_one_order e e' word ?_ ?_, ?_, ?_, ?_, ?_⟩
  · rw [List.count_eq_zero.2 hw]; rfl
  · rw [List.count_eq_zero.2 hw]; rfl
  · exact h _ (List.mem_cons_self ..) [w 1] 7 (by simp)
  · exact h' _ (List.mem_cons_self ..) [w 1] 7 (by simp)
  · exact h _ (List.mem_cons_of_mem _ (List.mem_cons_self ..)) [w 1, w 2] 3 (by simp)
  · exact h' _ (List.mem_cons_of_mem _ (List.mem_cons_self ..)) [w 1, w 2] 4 (by simp)

end OrdersExample

namespace OrdersProbExample
open TrieProbExample (sortQ sortQ_ok fbQ)
open MphProbExample (w data hs w_word hs_built data_input data_matter)

/-- The trigram model of the example of C28 with other probabilities of trigrams. -/
def data3 : List (List (List (List Byte) × ℚ × ℚ)) :=
  [[([w 0], -2, -1), ([w 1], -3, -1), ([w 2], -3, -1)],
   [([w 1, w 0], -1/2, -1/8), ([w 2, w 0], -1/2, -1/8), ([w 0, w 1], -1/2, -1/8), ([w 1, w 2], -1/2, -1/8)],
   [([w 0, w 1, w 0], -3/4, 0), ([w 1, w 2, w 0], -3/4, 0), ([w 2, w 0, w 1], -3/4, 0), ([w 0, w 1, w 2], -3/4, 0)]]

theorem data3_input : Spec.MphProbInput fbQ 200 2 2 hs data3 where
  arpa := by
    refine ⟨by simp [data3], by simp [data3], ?_, ?_, ?_, ?_, ?_⟩
    · intro k l h; rcases k with _ | _ | _ | k <;> simp [data3] at h <;> subst h <;> simp
    · intro f hf; simp [data3] at hf; rcases hf with rfl | rfl | rfl <;> simp [w]
    · intro f hf; simp [data3] at hf; rcases hf with rfl | rfl | rfl <;> simp
    · intro k l l' h h'; rcases k with _ | _ | _ | k <;> simp [data3] at h h' <;> subst h h' <;> simp
    · intro k l l' h h'; rcases k with _ | _ | _ | k <;> simp [data3] at h h' <;> subst h h' <;> simp
  bytes := by
    refine ⟨?_, ?_⟩
    · intro f hf r hr v hv
      have : v ∈ [w 0, w 1, w 2] := by
        simp [data3] at hf
        rcases hf with rfl | rfl | rfl
        · simp at hr; rcases hr with rfl | rfl | rfl <;> simp at hv ⊢ <;> simp [hv]
        · simp at hr; rcases hr with rfl | rfl | rfl | rfl <;> simp at hv ⊢ <;> rcases hv with rfl | rfl <;> simp
        · simp at hr; rcases hr with rfl | rfl | rfl | rfl <;> simp at hv ⊢ <;> rcases hv with rfl | rfl | rfl <;> simp
      simp at this
      rcases this with rfl | rfl | rfl <;> exact ⟨w_word _ (by decide), by simp [w]⟩
    · intro f hf; simp [data3] at hf; rcases hf with rfl | rfl | rfl <;> simp [w, joinSp]
  quant := by
    refine ⟨by decide, by decide, ?_, ?_, fun _ _ => trivial, fun _ _ => trivial⟩
    · intro f hf; simp [data3] at hf; rcases hf with rfl | rfl <;> simp
    · intro f hf; simp [data3] at hf; subst hf; right; simp
  hashes := by
    intro k f h
    rcases k with _ | _ | _ | k
    · simp [data3] at h; subst h; exact hs_built 0 _ rfl
    · simp [data3] at h; subst h; exact hs_built 1 _ rfl
    · simp [data3] at h; subst h; exact (hs_built 2 (data.getD 2 []) rfl :)
    · simp [data3] at h
  bits := .inl ⟨rfl, by decide, by intro f hf; simp [data3] at hf; rcases hf with rfl | rfl | rfl <;> simp⟩
  floats := by
    intro f0 hf r hr
    simp [data3] at hf; subst hf
    simp at hr
    rcases hr with rfl | rfl | rfl <;> exact ⟨by decide +kernel, by decide +kernel⟩
  notNaN := by
    intro f0 hf r hr
    simp [data3] at hf; subst hf
    simp at hr
    rcases hr with rfl | rfl | rfl <;> decide +kernel

theorem data3_matter : Spec.ContextsMatter data3 where
  nonpos := by intro f hf; simp [data3] at hf; rcases hf with rfl | rfl <;> simp <;> norm_num
  nonzero := by
    intro k f f' h h'
    rcases k with _ | _ | _ | k <;> simp [data3] at h h' <;> subst h h' <;> simp [w]

/-- Both models can be built, and every word after a state of at most one word is scored the same, in any text. -/
example : ∃ m m', MphProb.build fbQ sortQ (-1000) (-100) (-100) 200 0 hs 2 2 (Spec.lines data) = some (.ok m) ∧
    MphProb.build fbQ sortQ (-1000) (-100) (-100) 200 0 hs 2 2 (Spec.lines data3) = some (.ok m') ∧
    ∀ (text : Mem) (st : PState Nat ℚ) (word : ByteRange), st.length ≤ 1 → (m.scorer fbQ text).score st word = (m'.scorer fbQ text).score st word := by
  obtain ⟨m, _, _, e, -⟩ := C28_mph_textbook_scores fbQ sortQ_ok (-1000) (-100) (-100) 0 data_input data_matter
  obtain ⟨m', _, _, e', -⟩ := C28_mph_textbook_scores fbQ sortQ_ok (-1000) (-100) (-100) 0 data3_input data3_matter
  refine ⟨m, m', e, e', fun text st word hst => C75_scores_of_short_states e e' 1 (by simp [Spec.lines, data]) (by simp [Spec.lines, data3]) ?_ (fun _ _ => rfl) text st hst word⟩
  intro j hj
  rcases j with _ | _ | j
  · rfl
  · rfl
  · omega

end OrdersProbExample

end Tongrams
