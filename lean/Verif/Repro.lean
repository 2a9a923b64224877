import Verif.Workflow
import Verif.PrintTool

/-!
C70: reproducible builds.  No new code is modelled here: the theorems compare the files that the builders of Tools.lean write in two environments that
differ in what lies in memory after the arrays, in the order of evaluation that the compiler chose, and in the library (the order in which
`std::unordered_map` is traversed and in which `std::sort` leaves elements that compare equal).
-/

set_option linter.unusedSectionVars false

namespace Tongrams

/-- Two values of the list do not occur equally often. -/
def Spec.NoTies (vals : List Nat) : Prop := ∀ x ∈ vals, ∀ y ∈ vals, vals.count x = vals.count y → x = y

/-- `E'` differs from `E` only in the library, in what lies in memory after the arrays of the builder and of the reader, in what a new state contains
and in the order of evaluation. -/
def Spec.SameInputs {F : Type} (E E' : ToolEnv F) : Prop :=
  E' = { E with
    L := E'.L, junkU := E'.junkU, junkD := E'.junkD, junkU' := E'.junkU', junkD' := E'.junkD', junk := E'.junk, junk' := E'.junk', past := E'.past
    swap := E'.swap, d := E'.d, one := E'.one }

namespace Repro

/-! ## The collections of counts -/

theorem sorted_perm_unique {R : Type} {lt : R → R → Prop} {a b : List R} (hp : a.Perm b) (ha : a.Pairwise fun x y => ¬ lt y x)
    (hb : b.Pairwise fun x y => ¬ lt y x) (hties : ∀ x ∈ a, ∀ y ∈ a, ¬ lt x y → ¬ lt y x → x = y) : a = b := by
  refine hp.eq_of_pairwise (fun x y hx hy h1 h2 => ?_) ha hb
  exact hties x hx y (hp.mem_iff.2 hy) h2 h1

/-- The largest value does not depend on the order. -/
theorem foldl_max_perm {a b : List (Nat × Nat)} (h : a.Perm b) :
    a.foldl (fun a p => if p.1 > a then p.1 else a) 0 = b.foldl (fun a p => if p.1 > a then p.1 else a) 0 := by
  have : RightCommutative (fun (a : Nat) (p : Nat × Nat) => if p.1 > a then p.1 else a) := ⟨by
    intro a p q
    show (if q.1 > (if p.1 > a then p.1 else a) then q.1 else (if p.1 > a then p.1 else a)) =
      (if p.1 > (if q.1 > a then q.1 else a) then p.1 else (if q.1 > a then q.1 else a))
    repeat' split
    all_goals omega⟩
  exact h.foldl_eq (f := fun (a : Nat) (p : Nat × Nat) => if p.1 > a then p.1 else a) 0

/-- Without ties the collection does not depend on the library. -/
theorem ofValues_unique {L L' : SortLib} (hL : L.Valid) (hL' : L'.Valid) {vals : List Nat} (h : Spec.NoTies vals) :
    SeqColl.ofValues L vals = SeqColl.ofValues L' vals := by
  obtain ⟨hnd, hmem⟩ := SeqColl.eat_spec vals [] [] (by simp) (by simp)
  unfold SeqColl.ofValues
  generalize vals.foldl SeqColl.eatValue [] = m at hnd hmem ⊢
  unfold SeqColl.buildSequence
  by_cases hm : m = []
  · rw [if_pos hm, if_pos hm]
  rw [if_neg hm, if_neg hm]
  have hp : (L.iter m).Perm (L'.iter m) := (hL.iter m).trans (hL'.iter m).symm
  have hf1 := hL.byFreq (L.iter m)
  have hf2 := hL'.byFreq (L'.iter m)
  have hin : ∀ p ∈ L.byFreq (L.iter m), p ∈ m := fun p hp => (hL.iter m).mem_iff.1 (hf1.1.mem_iff.1 hp)
  have hr : L.byFreq (L.iter m) = L'.byFreq (L'.iter m) := by
    refine sorted_perm_unique (lt := fun x y : Nat × Nat => x.2 > y.2) ((hf1.1.trans hp).trans hf2.1.symm) hf1.2 hf2.2 ?_
    intro x hx y hy h1 h2
    obtain ⟨a, c⟩ := x
    obtain ⟨b, d⟩ := y
    obtain ⟨ha, ec⟩ := (hmem a c).1 (hin _ hx)
    obtain ⟨hb, ed⟩ := (hmem b d).1 (hin _ hy)
    simp only [List.nil_append] at ha ec hb ed
    have : c = d := by simp only [gt_iff_lt, Nat.not_lt] at h1 h2; omega
    have := h a ha b hb (by omega)
    simp only [Prod.mk.injEq]; omega
  have hv : ∀ R : List (Nat × Nat), (R.map (·.1)).Nodup → L.byValue R = L'.byValue R := by
    intro R hR
    have h1 := hL.byValue R
    have h2 := hL'.byValue R
    refine sorted_perm_unique (lt := fun x y : Nat × Nat => x.1 < y.1) (h1.1.trans h2.1.symm) h1.2 h2.2 ?_
    intro x hx y hy a b
    exact List.inj_on_of_nodup_map hR (h1.1.mem_iff.1 hx) (h1.1.mem_iff.1 hy) (by simp only [Nat.not_lt] at a b; omega)
  simp only
  rw [← hr, foldl_max_perm hp, hp.length_eq]
  have hnd' : (((L.byFreq (L.iter m)).zipIdx.map fun p => (p.1.1, p.2)).map (·.1)).Nodup := by
    have e : ((L.byFreq (L.iter m)).zipIdx.map fun p => (p.1.1, p.2)).map (·.1) = (L.byFreq (L.iter m)).map (·.1) := by
      rw [List.map_map]
      conv_rhs => rw [← List.zipIdx_map_fst 0 (L.byFreq (L.iter m)), List.map_map]
      rfl
    rw [e]
    exact ((hf1.1.trans (hL.iter m)).map (·.1)).nodup_iff.2 hnd
  rw [hv _ hnd']

/-! ## Two sequences that save the same bytes -/

/-- Both build what is saved as the same bytes. -/
structure GTwin {G G2 : GramsSt} (F : GramsFile G) (F2 : GramsFile G2) : Prop where
  unbuilt : F.save none = F2.save none
  built : ∀ ord ids ptrs s s2, G.build ord ids ptrs = some (.ok s) → G2.build ord ids ptrs = some (.ok s2) → F.save (some s) = F2.save (some s2)

/-- The same for ranks. -/
structure RTwin {R R2 : RanksSt} (F : RanksFile R) (F2 : RanksFile R2) : Prop where
  unbuilt : F.save none = F2.save none
  built : ∀ ord ranks s s2, R.build ord ranks = some (.ok s) → R2.build ord ranks = some (.ok s2) → F.save (some s) = F2.save (some s2)

theorem ofSeq_seq {u d : List W} {f : PEF} {o : PefObj} (h : PefObj.ofSeq u d f = some o) : o.seq = f := by
  unfold PefObj.ofSeq at h
  obtain ⟨e, -, rfl⟩ := Option.map_eq_some_iff.1 h
  rfl

theorem pef_twin (junkU junkD junkU2 junkD2 : Nat → List W) : GTwin (GramsFile.pef junkU junkD) (GramsFile.pef junkU2 junkD2) where
  unbuilt := rfl
  built ord ids ptrs s s2 h h2 := by
    obtain ⟨f, e1, e2⟩ := Res.bind_ok_iff h
    obtain ⟨f2, e3, e4⟩ := Res.bind_ok_iff h2
    rw [e1] at e3; cases e3
    have a1 := ofSeq_seq (Res.lift_ok_iff e2)
    have a2 := ofSeq_seq (Res.lift_ok_iff e4)
    show s.seq.save = s2.seq.save
    rw [a1, a2]

theorem gdata_twin (G : GramsData) (junk : G.D) : GTwin (GramsFile.data G junk) (GramsFile.data G junk) where
  unbuilt := rfl
  built ord ids ptrs s s2 h h2 := by rw [h] at h2; cases h2; rfl

theorem pspef_twin (swap swap2 : Bool) (junkU junkD junkU2 junkD2 : Nat → List W) :
    RTwin (RanksFile.pspef swap junkU junkD) (RanksFile.pspef swap2 junkU2 junkD2) where
  unbuilt := rfl
  built ord ranks s s2 h h2 := by
    obtain ⟨u, e0, h⟩ := Res.bind_ok_iff h
    obtain ⟨u2, e0', h2⟩ := Res.bind_ok_iff h2
    rw [e0] at e0'; cases e0'
    obtain ⟨f, e1, e2⟩ := Res.bind_ok_iff h
    obtain ⟨f2, e3, e4⟩ := Res.bind_ok_iff h2
    rw [e1] at e3; cases e3
    have a1 := ofSeq_seq (Res.lift_ok_iff e2)
    have a2 := ofSeq_seq (Res.lift_ok_iff e4)
    show putU 8 s.seq.size ++ s.seq.save = putU 8 s2.seq.size ++ s2.seq.save
    rw [a1, a2]

theorem rdata_twin (R : RanksData) (mem mem2 : Nat → List W) (junk : R.E) : RTwin (RanksFile.data R mem junk) (RanksFile.data R mem2 junk) where
  unbuilt := rfl
  built ord ranks s s2 h h2 := by
    obtain ⟨d, e1, e2⟩ := Res.bind_ok_iff h
    obtain ⟨d2, e3, e4⟩ := Res.bind_ok_iff h2
    rw [e1] at e3; cases e3
    cases e2; cases e4; rfl

theorem ranks_twin (r : RanksT) (swap swap2 : Bool) (junkU junkD junkU2 junkD2 : Nat → List W) (ji : ICSeq) (je : EF) :
    RTwin ((r.ranks swap).file junkU junkD ji je) ((r.ranks swap2).file junkU2 junkD2 ji je) := by
  cases r with
  | IC => exact rdata_twin _ _ _ _
  | PSEF => exact rdata_twin _ _ _ _
  | PSPEF => exact pspef_twin _ _ _ _ _ _

/-! ## Two constructions -/

section
variable {G G2 G' G2' : GramsSt} {R R2 R' R2' : RanksSt} {F : GramsFile G} {F2 : GramsFile G2} {F' : GramsFile G'} {F2' : GramsFile G2'}
  {Fr : RanksFile R} {Fr2 : RanksFile R2} {Fr' : RanksFile R'} {Fr2' : RanksFile R2'}

/-- What is saved of the arrays. -/
abbrev Keys (F : GramsFile G) (Fr : RanksFile R) (B : List (StArray G R)) : List (Nat × List Byte × List Byte × Option EF) :=
  B.map (StArray.key F.save Fr.save)

theorem keys_get {B : List (StArray G R)} {B2 : List (StArray G2 R2)} (h : Keys F Fr B = Keys F2 Fr2 B2) {i : Nat} {b : StArray G R} {b2 : StArray G2 R2}
    (hb : B[i]? = some b) (hb2 : B2[i]? = some b2) : b.key F.save Fr.save = b2.key F2.save Fr2.save := by
  have := congrArg (fun l => l[i]?) h
  simp only [Keys, List.getElem?_map, hb, hb2, Option.map_some] at this
  exact Option.some.inj this

theorem level_twin {K : Type} [DecidableEq K] {I : GramsImpl} {J : RanksImpl} (hG : F.Stores F' I) (hG2 : F2.Stores F2' I)
    (hR : Fr.Stores Fr' J) (hR2 : Fr2.Stores Fr2' J) (tg : GTwin F F2) (tr : RTwin Fr Fr2)
    {voc : K → Option Nat} {check : Bool} {ro vocSize rankWidth k : Nat} {curr prev : List (List K)} {ranks : List Nat}
    {A A' : List SortedArray} {B : List (StArray G R)} {B2 : List (StArray G2 R2)} (hAB : ArrSim A B) (hAB2 : ArrSim A B2) (hk : Keys F Fr B = Keys F2 Fr2 B2)
    (h : buildLevel I J voc check ro vocSize rankWidth k curr prev ranks A = some (.ok A')) :
    ∃ B' B2', buildLevelSt G R voc check ro vocSize rankWidth k curr prev ranks B = some (.ok B') ∧
      buildLevelSt G2 R2 voc check ro vocSize rankWidth k curr prev ranks B2 = some (.ok B2') ∧ ArrSim A' B' ∧ ArrSim A' B2' ∧ Keys F Fr B' = Keys F2 Fr2 B2' := by
  unfold buildLevel at h
  obtain ⟨ptrs, e1, h⟩ := Res.bind_ok_iff h
  obtain ⟨ids, e2, h⟩ := Res.bind_ok_iff h
  by_cases hc : check = true ∧ (ro ≠ 0 ∧ ro < k) ∧ NF ∈ ids
  · rw [if_pos hc] at h; cases h
  rw [if_neg hc] at h
  obtain ⟨ids', e3, h⟩ := Res.bind_ok_iff h
  obtain ⟨f, e4, h⟩ := Res.bind_ok_iff h
  obtain ⟨ranks', e5, h⟩ := Res.bind_ok_iff h
  obtain ⟨g, e6, h⟩ := Res.bind_ok_iff h
  obtain ⟨e, e7, h⟩ := Res.bind_ok_iff h
  have h := Res.lift_ok_iff h
  obtain ⟨a, ha, h⟩ := Option.bind_eq_some_iff.1 h
  obtain ⟨ap, hap, rfl⟩ := Option.map_eq_some_iff.1 h
  obtain ⟨B1, m1, hB1⟩ := Refines.mapM (G := G) (R := R) (A := A) (Refines.tokenId voc ro) curr ids (Res.lift_ok_iff e2) B hAB
  obtain ⟨C1, n1, hC1⟩ := Refines.mapM (G := G2) (R := R2) (A := A) (Refines.tokenId voc ro) curr ids (Res.lift_ok_iff e2) B2 hAB2
  have k1 : Keys F Fr B1 = Keys F2 Fr2 C1 :=
    (St.Keeps.mapM (St.Keeps.tokenId hG.keeps voc ro) curr B ids B1 m1).trans
      (hk.trans (St.Keeps.mapM (St.Keeps.tokenId hG2.keeps voc ro) curr B2 ids C1 n1).symm)
  obtain ⟨s, b4, s4, -⟩ := hG.build _ _ _ f e4
  obtain ⟨s2, c4, t4, -⟩ := hG2.build _ _ _ f e4
  obtain ⟨t, b6, s6, -⟩ := hR.build _ _ g e6
  obtain ⟨t2, c6, t6, -⟩ := hR2.build _ _ g e6
  obtain ⟨b, hb, sb⟩ := hB1.get ha
  obtain ⟨bp, hbp, sbp⟩ := hB1.get hap
  obtain ⟨b2, hb2, sb2⟩ := hC1.get ha
  obtain ⟨bp2, hbp2, sbp2⟩ := hC1.get hap
  have kb := keys_get k1 hb hb2
  have kbp := keys_get k1 hbp hbp2
  have kg := tg.built _ _ _ _ _ b4 c4
  have kr := tr.built _ _ _ _ b6 c6
  refine ⟨(B1.set k { b with grams := some s, ranks := some t }).set (k - 1) { bp with ptrs := some e },
    (C1.set k { b2 with grams := some s2, ranks := some t2 }).set (k - 1) { bp2 with ptrs := some e }, ?_, ?_, ?_, ?_, ?_⟩
  · unfold buildLevelSt
    rw [e1, Res.bind_ok, m1, Res.lift_some, Res.bind_ok, if_neg hc, e3, Res.bind_ok, b4, Res.bind_ok, e5, Res.bind_ok, b6, Res.bind_ok,
      e7, Res.bind_ok, hb, Option.bind_some, hbp, Option.map_some, Res.lift_some]
  · unfold buildLevelSt
    rw [e1, Res.bind_ok, n1, Res.lift_some, Res.bind_ok, if_neg hc, e3, Res.bind_ok, c4, Res.bind_ok, e5, Res.bind_ok, c6, Res.bind_ok,
      e7, Res.bind_ok, hb2, Option.bind_some, hbp2, Option.map_some, Res.lift_some]
  · exact (hB1.set (a := { a with find := f, ranks := g }) (b := { b with grams := some s, ranks := some t }) ⟨sb.size, s4, s6, sb.pair⟩).set
      (a := { ap with pair := e.pair }) (b := { bp with ptrs := some e }) ⟨sbp.size, sbp.grams, sbp.ranks, fun _ _ h => h⟩
  · exact (hC1.set (a := { a with find := f, ranks := g }) (b := { b2 with grams := some s2, ranks := some t2 }) ⟨sb2.size, t4, t6, sb2.pair⟩).set
      (a := { ap with pair := e.pair }) (b := { bp2 with ptrs := some e }) ⟨sbp2.size, sbp2.grams, sbp2.ranks, fun _ _ h => h⟩
  · simp only [StArray.key, Prod.mk.injEq] at kb kbp
    show List.map _ _ = List.map _ _
    rw [List.map_set, List.map_set, List.map_set, List.map_set]
    show ((Keys F Fr B1).set k (b.size, F.save (some s), Fr.save (some t), b.ptrs)).set (k - 1) (bp.size, F.save bp.grams, Fr.save bp.ranks, some e) =
      ((Keys F2 Fr2 C1).set k (b2.size, F2.save (some s2), Fr2.save (some t2), b2.ptrs)).set (k - 1) (bp2.size, F2.save bp2.grams, Fr2.save bp2.ranks, some e)
    rw [k1, kg, kr, kb.1, kb.2.2.2, kbp.1, kbp.2.1, kbp.2.2.1]

theorem levels_twin {K : Type} [DecidableEq K] {I : GramsImpl} {J : RanksImpl} (hG : F.Stores F' I) (hG2 : F2.Stores F2' I)
    (hR : Fr.Stores Fr' J) (hR2 : Fr2.Stores Fr2' J) (tg : GTwin F F2) (tr : RTwin Fr Fr2) {voc : K → Option Nat} {check : Bool} {ro vocSize : Nat} :
    ∀ (rest : List (List (List K) × List Nat × Nat)) (k : Nat) (prev : List (List K)) {A A' : List SortedArray} {B : List (StArray G R)}
      {B2 : List (StArray G2 R2)}, ArrSim A B → ArrSim A B2 → Keys F Fr B = Keys F2 Fr2 B2 →
    buildLevels I J voc check ro vocSize k prev rest A = some (.ok A') →
    ∃ B' B2', buildLevelsSt G R voc check ro vocSize k prev rest B = some (.ok B') ∧ buildLevelsSt G2 R2 voc check ro vocSize k prev rest B2 = some (.ok B2') ∧
      ArrSim A' B' ∧ ArrSim A' B2' ∧ Keys F Fr B' = Keys F2 Fr2 B2' := by
  intro rest
  induction rest with
  | nil => intro k prev A A' B B2 hAB hAB2 hk h; cases h; exact ⟨B, B2, rfl, rfl, hAB, hAB2, hk⟩
  | cons x rest ih =>
    intro k prev A A' B B2 hAB hAB2 hk h
    obtain ⟨curr, ranks, w⟩ := x
    rw [buildLevels] at h
    obtain ⟨A1, h1, h2⟩ := Res.bind_ok_iff h
    obtain ⟨B1, C1, e1, f1, hB1, hC1, k1⟩ := level_twin hG hG2 hR hR2 tg tr hAB hAB2 hk h1
    obtain ⟨B', C', e2, f2, hB2, hC2, k2⟩ := ih _ _ hB1 hC1 k1 h2
    exact ⟨B', C', by rw [buildLevelsSt, e1, Res.bind_ok, e2], by rw [buildLevelsSt, f1, Res.bind_ok, f2], hB2, hC2, k2⟩

theorem save_key {jp : EF} {order : Nat} {wr : Bool} {a : StArray G R} {b : StArray G2 R2} (h : a.key F.save Fr.save = b.key F2.save Fr2.save) :
    a.save F Fr jp order wr = b.save F2 Fr2 jp order wr := by
  unfold StArray.key at h
  simp only [Prod.mk.injEq] at h
  obtain ⟨h1, h2, h3, h4⟩ := h
  unfold StArray.save
  rw [h1, h2, h3, h4]

theorem saveFrom_key {jp : EF} : ∀ {A : List (StArray G R)} {B : List (StArray G2 R2)} (k : Nat), Keys F Fr A = Keys F2 Fr2 B →
    StArray.saveFrom F Fr jp k A = StArray.saveFrom F2 Fr2 jp k B
  | [], [], _, _ => rfl
  | [], _ :: _, _, h => by simp [Keys] at h
  | _ :: _, [], _, h => by simp [Keys] at h
  | a :: A, b :: B, k, h => by
    simp only [Keys, List.map_cons, List.cons.injEq] at h
    rw [StArray.saveFrom, StArray.saveFrom, save_key h.1, saveFrom_key (k + 1) h.2]

theorem saveAll_key {jp : EF} {fr : Bool} {A : List (StArray G R)} {B : List (StArray G2 R2)} (h : Keys F Fr A = Keys F2 Fr2 B) :
    StArray.saveAll F Fr jp fr A = StArray.saveAll F2 Fr2 jp fr B := by
  match A, B, h with
  | [], [], _ => rfl
  | [], _ :: _, h => simp [Keys] at h
  | _ :: _, [], h => simp [Keys] at h
  | a :: A, b :: B, h =>
    simp only [Keys, List.map_cons, List.cons.injEq] at h
    rw [StArray.saveAll, StArray.saveAll, save_key h.1, saveFrom_key 2 h.2]

/-- Count tries over twins are saved as the same bytes. -/
theorem count_twin {K : Type} [DecidableEq K] {I : GramsImpl} {J : RanksImpl} (hG : F.Stores F' I) (hG2 : F2.Stores F2' I)
    (hR : Fr.Stores Fr' J) (hR2 : Fr2.Stores Fr2' J) (tg : GTwin F F2) (tr : RTwin Fr Fr2)
    {L : SortLib} {files : List (List (List K × Nat))} {ro : Nat} {hv : Mphf K 64} {t : TrieCount K}
    (e : TrieCount.build L hv I J ro files = some (.ok t)) (jp : EF) (c : Emphf K 64) :
    ∃ t1 t2, StCount.build L hv G R ro files = some (.ok t1) ∧ StCount.build L hv G2 R2 ro files = some (.ok t2) ∧
      ∀ ro', StCount.save F Fr jp c { t1 with ro := ro' } = StCount.save F2 Fr2 jp c { t2 with ro := ro' } := by
  unfold TrieCount.build at e
  by_cases hcd : files.length < 2 ∨ maxOrder < files.length ∨ 2 < ro
  · rw [if_pos hcd] at e; cases e
  rw [if_neg hcd] at e
  obtain ⟨colls, e1, e⟩ := Res.bind_ok_iff e
  obtain ⟨rks, e2, e⟩ := Res.bind_ok_iff e
  obtain ⟨r0, e3, e⟩ := Res.bind_ok_iff e
  obtain ⟨g0, e4, e⟩ := Res.bind_ok_iff e
  obtain ⟨tb, e5, e⟩ := Res.bind_ok_iff e
  obtain ⟨f0, e6, e⟩ := Res.bind_ok_iff e
  obtain ⟨arrs, e7, e⟩ := Res.bind_ok_iff e
  cases e
  obtain ⟨t0, b4, s4, -⟩ := hR.build _ _ g0 e4
  obtain ⟨t02, c4, u4, -⟩ := hR2.build _ _ g0 e4
  have hsim : ∀ {G : GramsSt} {R : RanksSt} {t0 : R.T}, R.Sim g0 (some t0) →
      ArrSim ((files.map fun f => SortedArray.new f.length).modifyHead fun a => { a with ranks := g0 })
        ((files.map fun f => (StArray.new f.length : StArray G R)).modifyHead fun a => { a with ranks := some t0 }) := by
    intro G R t0 s4
    refine ⟨by simp, ?_⟩
    intro i a b ha hb
    rw [List.getElem?_modifyHead, List.getElem?_map] at ha hb
    by_cases hi : i = 0
    · subst hi
      simp only [if_true] at ha hb
      obtain ⟨a', ha', rfl⟩ := Option.map_eq_some_iff.1 ha
      obtain ⟨b', hb', rfl⟩ := Option.map_eq_some_iff.1 hb
      obtain ⟨f, hf, rfl⟩ := Option.map_eq_some_iff.1 ha'
      rw [hf] at hb'; cases hb'
      have h1 : (StArray.new f.length : StArray G R).Sim (SortedArray.new f.length) := StArray.new_sim _
      exact ⟨h1.size, h1.grams, s4, h1.pair⟩
    · simp only [hi, if_false] at ha hb
      obtain ⟨f, hf, rfl⟩ := Option.map_eq_some_iff.1 ha
      rw [hf] at hb; cases hb
      exact StArray.new_sim _
  have hkeys : Keys F Fr ((files.map fun f => (StArray.new f.length : StArray G R)).modifyHead fun a => { a with ranks := some t0 }) =
      Keys F2 Fr2 ((files.map fun f => (StArray.new f.length : StArray G2 R2)).modifyHead fun a => { a with ranks := some t02 }) := by
    have ht := tr.built _ _ _ _ b4 c4
    cases files with
    | nil => rfl
    | cons f fs =>
      simp only [Keys, List.map_cons, List.modifyHead_cons, List.map_map]
      congr 1
      · simp only [StArray.key, StArray.new, tg.unbuilt, ht]
      · refine List.map_congr_left fun x _ => ?_
        simp only [Function.comp, StArray.key, StArray.new, tg.unbuilt, tr.unbuilt]
  obtain ⟨B, B2, b7, c7, -, -, k7⟩ := levels_twin hG hG2 hR hR2 tg tr _ _ _ (hsim s4) (hsim u4) hkeys e7
  refine ⟨{ order := files.length, ro := ro, voc := tb, arrs := B, counts := colls.map (·.1) },
    { order := files.length, ro := ro, voc := tb, arrs := B2, counts := colls.map (·.1) }, ?_, ?_, fun ro' => ?_⟩
  · unfold StCount.build
    rw [if_neg hcd, e1, Res.bind_ok, e2, Res.bind_ok, e3, Res.bind_ok, b4, Res.bind_ok, e5, Res.bind_ok, e6, Res.bind_ok, b7, Res.bind_ok]
  · unfold StCount.build
    rw [if_neg hcd, e1, Res.bind_ok, e2, Res.bind_ok, e3, Res.bind_ok, c4, Res.bind_ok, e5, Res.bind_ok, e6, Res.bind_ok, c7, Res.bind_ok]
  · unfold StCount.save
    rw [saveAll_key k7]

/-- Backoff tries over twins are saved as the same bytes. -/
theorem prob_twin {K V : Type} [DecidableEq K] [FloatArith V] {I : GramsImpl} {J : RanksImpl} (hG : F.Stores F' I) (hG2 : F2.Stores F2' I)
    (hR : Fr.Stores Fr' J) (hR2 : Fr2.Stores Fr2' J) (tg : GTwin F F2) (tr : RTwin Fr Fr2) {fb : FloatBits V} {sort : List V → List V}
    {negInf default unk : V} {unkWord : K} {data : List (List (List K × V × V))} {ro pb bb : Nat} {hv : Mphf K 64} {t : TrieProb K V}
    (e : TrieProb.build fb sort negInf unkWord default hv I J ro unk pb bb data = some (.ok t)) (jp : EF) (c : Emphf K 64) :
    ∃ t1 t2, StProb.build fb sort negInf unkWord default hv G R ro unk pb bb data = some (.ok t1) ∧
      StProb.build fb sort negInf unkWord default hv G2 R2 ro unk pb bb data = some (.ok t2) ∧
      ∀ ro', StProb.save F Fr jp fb c bb { t1 with ro := ro' } = StProb.save F2 Fr2 jp fb c bb { t2 with ro := ro' } := by
  unfold TrieProb.build at e
  by_cases hcd : data.length < 2 ∨ maxOrder < data.length ∨ 2 < ro
  · rw [if_pos hcd] at e; cases e
  rw [if_neg hcd] at e
  obtain ⟨⟨ps, bs⟩, e1, e⟩ := Res.bind_ok_iff e
  obtain ⟨f0, e2, e⟩ := Res.bind_ok_iff e
  obtain ⟨tb, e3, e⟩ := Res.bind_ok_iff e
  obtain ⟨rks, e4, e⟩ := Res.bind_ok_iff e
  obtain ⟨arrs, e5, e⟩ := Res.bind_ok_iff e
  cases e
  have hsim : ∀ {G : GramsSt} {R : RanksSt}, ArrSim (data.map fun f => SortedArray.new f.length) (data.map fun f => (StArray.new f.length : StArray G R)) := by
    intro G R
    refine ⟨by simp, ?_⟩
    intro i a b ha hb
    rw [List.getElem?_map] at ha hb
    obtain ⟨f, hf, rfl⟩ := Option.map_eq_some_iff.1 ha
    rw [hf] at hb; cases hb
    exact StArray.new_sim _
  have hkeys : Keys F Fr (data.map fun f => (StArray.new f.length : StArray G R)) = Keys F2 Fr2 (data.map fun f => (StArray.new f.length : StArray G2 R2)) := by
    simp only [Keys, List.map_map]
    refine List.map_congr_left fun x _ => ?_
    simp only [Function.comp, StArray.key, StArray.new, tg.unbuilt, tr.unbuilt]
  obtain ⟨B, B2, b5, c5, -, -, k5⟩ := levels_twin hG hG2 hR hR2 tg tr _ _ _ hsim hsim hkeys e5
  refine ⟨{ order := data.length, ro := ro, unk := findUnk unkWord default f0 unk, voc := tb, arrs := B, ps := ps, bs := bs, pb := pb },
    { order := data.length, ro := ro, unk := findUnk unkWord default f0 unk, voc := tb, arrs := B2, ps := ps, bs := bs, pb := pb }, ?_, ?_, fun ro' => ?_⟩
  · unfold StProb.build
    rw [if_neg hcd, e1, Res.bind_ok, e2, Res.bind_ok, e3, Res.bind_ok, e4, Res.bind_ok, b5, Res.bind_ok]
  · unfold StProb.build
    rw [if_neg hcd, e1, Res.bind_ok, e2, Res.bind_ok, e3, Res.bind_ok, e4, Res.bind_ok, c5, Res.bind_ok]
  · unfold StProb.save
    rw [saveAll_key k5]

end

/-- An environment with the same inputs. -/
abbrev other {F : Type} (E : ToolEnv F) (L : SortLib) (u d v w j j' : Nat → List W) (past : List W) (swap : Bool) (st : Nat) (one : F) : ToolEnv F :=
  { E with L := L, junkU := u, junkD := d, junkU' := v, junkD' := w, junk := j, junk' := j', past := past, swap := swap, d := st, one := one }

/-! ## The library in the builders of count models -/

theorem mapM_congr {α β : Type} {f g : α → Res β} : ∀ {l : List α}, (∀ x ∈ l, f x = g x) → Res.mapM f l = Res.mapM g l
  | [], _ => rfl
  | a :: l, h => by
    rw [Res.mapM, Res.mapM, h a List.mem_cons_self, mapM_congr fun x hx => h x (List.mem_cons_of_mem _ hx)]

theorem trie_lib {K : Type} [DecidableEq K] {L L' : SortLib} {G : GramsSt} {R : RanksSt} {hv : Mphf K 64} {ro : Nat} {files : List (List (List K × Nat))}
    (h : ∀ f ∈ files, SeqColl.ofValues L (f.map (·.2)) = SeqColl.ofValues L' (f.map (·.2))) :
    StCount.build L hv G R ro files = StCount.build L' hv G R ro files := by
  unfold StCount.build
  rw [mapM_congr (g := fun f : List (List K × Nat) => Res.lift (SeqColl.ofValues L' (f.map (·.2)))) fun f hf => by rw [h f hf]]

theorem hash_lib {B : Nat} {L L' : SortLib} {mem extra : Nat} {hs : Nat → Mphf (List Byte) B} {files : List (List (List Byte × Nat))}
    (h : ∀ f ∈ files, SeqColl.ofValues L (f.map (·.2)) = SeqColl.ofValues L' (f.map (·.2))) :
    MphCount.build L mem extra hs files = MphCount.build L' mem extra hs files := by
  unfold MphCount.build
  rw [mapM_congr (g := fun f : List (List Byte × Nat) => Res.lift (SeqColl.ofValues L' (f.map (·.2)))) fun f hf => by rw [h f hf]]

/-- The text of well-formed count files is read (C41). -/
theorem hash_files {B : Nat} {L : SortLib} {mem extra : Nat} {files : List (List (List (List Byte) × Nat))}
    (h : Spec.CountLists mem files) (hw : ∀ f ∈ files, ∀ r ∈ f, ∀ w ∈ r.1, Spec.FileWord w) (hn : ∀ f ∈ files, f.length < 2 ^ 57)
    (hs : Nat → Mphf (List Byte) B) : MphCount.buildFiles L mem extra hs (files.map Spec.gramsText) = MphCount.build L mem extra hs (Spec.lines files) := by
  unfold MphCount.buildFiles
  rw [Res.mapM_map_ok (h := fun f => f.map fun r => (joinSp r.1, BitVec.ofNat 64 r.2)) fun f hf =>
    readGrams_text (h.nonempty f hf) (by have := hn f hf; omega) (hw f hf), Res.bind_ok]
  congr 1
  unfold Spec.lines
  rw [List.map_map]
  apply List.map_congr_left
  intro f hf
  rw [Function.comp, List.map_map]
  apply List.map_congr_left
  intro r hr
  rw [Function.comp, BitVec.toNat_ofNat, Nat.mod_eq_of_lt (Nat.lt_of_lt_of_le (h.counts f hf r hr) (Nat.sub_le _ _))]

theorem lines_counts {files : List (List (List (List Byte) × Nat))} {f : List (List Byte × Nat)} (hf : f ∈ Spec.lines files) :
    ∃ g ∈ files, f.map (·.2) = g.map (·.2) := by
  obtain ⟨g, hg, rfl⟩ := List.mem_map.1 hf
  exact ⟨g, hg, by rw [List.map_map]; rfl⟩

/-! ## Ties -/

/-- The vector of a collection is that of the values in the order of their ranks. -/
theorem ranked {L : SortLib} (hL : L.Valid) {vals : List Nat} (hv : ∀ v ∈ vals, v < 2 ^ 64 - 1) (hn : vals.length < 2 ^ 63) :
    ∃ r R, SeqColl.ofValues L vals = some r ∧ R = L.byFreq (L.iter (vals.foldl SeqColl.eatValue [])) ∧ r.1.size = R.length ∧
      (∀ i (hi : i < R.length), SeqColl.access r.1 i = some R[i].1) ∧ (∀ v c, (v, c) ∈ R ↔ v ∈ vals ∧ c = vals.count v) ∧
      R.Pairwise fun x y => ¬ x.2 < y.2 := by
  obtain ⟨hnd, hmem⟩ := SeqColl.eat_spec vals [] [] (by simp) (by simp)
  simp only [List.nil_append] at hmem
  unfold SeqColl.ofValues
  generalize vals.foldl SeqColl.eatValue [] = m at hnd hmem
  have hp1 := hL.iter m
  obtain ⟨hp2, hs2⟩ := hL.byFreq (L.iter m)
  have hRm := hp2.trans hp1
  have hRmem : ∀ v c, (v, c) ∈ L.byFreq (L.iter m) ↔ v ∈ vals ∧ c = vals.count v := fun v c => by rw [hRm.mem_iff]; exact hmem v c
  by_cases hm0 : m = []
  · subst hm0
    have hR0 : L.byFreq (L.iter []) = [] := hRm.eq_nil
    exact ⟨_, _, by rw [SeqColl.buildSequence, if_pos rfl], rfl, by simp [hR0], by simp [hR0], hRmem, by simp [hR0]⟩
  · have hmax := SeqColl.foldl_max (L.iter m) 0
    have hRnd : ((L.byFreq (L.iter m)).map (·.1)).Nodup := (hRm.map _).nodup_iff.2 hnd
    have hsize : (L.byFreq (L.iter m)).length = vals.dedup.length := by
      have h1 : ((L.byFreq (L.iter m)).map (·.1)).Perm vals.dedup := by
        rw [List.perm_ext_iff_of_nodup hRnd (List.nodup_dedup _)]
        intro v
        rw [List.mem_dedup, List.mem_map]
        constructor
        · rintro ⟨⟨a, c⟩, h, rfl⟩; exact ((hRmem a c).1 h).1
        · intro h; exact ⟨(v, vals.count v), (hRmem _ _).2 ⟨h, rfl⟩, rfl⟩
      have := h1.length_eq
      rwa [List.length_map] at this
    have hMlt : (L.iter m).foldl (fun a p => if p.1 > a then p.1 else a) 0 < 2 ^ 64 - 1 := by
      rcases hmax.2.2 with h | ⟨⟨a, c⟩, h, h'⟩
      · rw [h]; omega
      · rw [h']; exact hv a ((hmem a c).1 (hp1.mem_iff.1 h)).1
    obtain ⟨b, b', e1, e2, hh⟩ := SeqColl.pack (R := L.byFreq (L.iter m)) (n := (L.iter m).length) hp2.length_eq.symm hMlt
      (fun p hp => hmax.1 p (hp2.mem_iff.1 hp))
    obtain ⟨hsz, hacc, -⟩ := SeqColl.core hL hRnd
      (fun p hp => by have := hv p.1 ((hRmem p.1 p.2).1 hp).1; omega)
      (by rw [hsize]; have := (List.dedup_sublist vals).length_le; omega) hh
    exact ⟨_, _, SeqColl.build_eq hm0 e1 e2, rfl, hsz, hacc, hRmem, hs2⟩

/-- A library that leaves values that occur equally often in ascending or in descending order. -/
def tieLib (up : Bool) : SortLib :=
  ⟨id, exSort fun x y => decide (y.2 < x.2 ∨ y.2 = x.2 ∧ if up then x.1 ≤ y.1 else y.1 ≤ x.1), exSort fun x y => decide (x.1 ≤ y.1)⟩

theorem tieLib_sorted (up : Bool) (l : List (Nat × Nat)) :
    ((tieLib up).byFreq l).Pairwise fun x y => y.2 < x.2 ∨ y.2 = x.2 ∧ if up then x.1 ≤ y.1 else y.1 ≤ x.1 := by
  refine (exSort_sorted (le := fun x y : Nat × Nat => decide (y.2 < x.2 ∨ y.2 = x.2 ∧ if up then x.1 ≤ y.1 else y.1 ≤ x.1)) ?_ ?_ l).imp ?_
  · intro a b; simp only [decide_eq_true_eq]; cases up <;> simp <;> omega
  · intro a b c; simp only [decide_eq_true_eq]; cases up <;> simp <;> omega
  · intro a b h; simpa only [decide_eq_true_eq] using h

theorem tieLib_valid (up : Bool) : (tieLib up).Valid where
  iter l := List.Perm.refl l
  byFreq l := ⟨exSort_perm _ _, (tieLib_sorted up l).imp fun h => by omega⟩
  byValue l := exLib_valid.byValue l

/-- With a tie, these two build different vectors. -/
theorem ties_differ {vals : List Nat} (hv : ∀ v ∈ vals, v < 2 ^ 64 - 1) (hn : vals.length < 2 ^ 63) (ht : ¬ Spec.NoTies vals)
    {r r' : CompactVector × List (Nat × Nat)} (e : SeqColl.ofValues (tieLib true) vals = some r) (e' : SeqColl.ofValues (tieLib false) vals = some r') :
    r.1 ≠ r'.1 := by
  intro hr
  obtain ⟨r1, R, f1, hR, s1, a1, m1, -⟩ := ranked (tieLib_valid true) hv hn
  obtain ⟨r2, R', f2, hR', s2, a2, m2, -⟩ := ranked (tieLib_valid false) hv hn
  rw [e] at f1; cases f1
  rw [e'] at f2; cases f2
  have hl : R.length = R'.length := by rw [← s1, ← s2, hr]
  have heq : R = R' := by
    refine List.ext_getElem hl fun i h1 h2 => ?_
    have x := a1 i h1
    rw [hr, a2 i h2] at x
    have x := Option.some.inj x
    have y1 := (m1 R[i].1 R[i].2).1 (List.getElem_mem h1)
    have y2 := (m2 R'[i].1 R'[i].2).1 (List.getElem_mem h2)
    exact Prod.ext x.symm (by rw [y1.2, y2.2, x])
  subst heq
  have p1 : R.Pairwise _ := hR ▸ tieLib_sorted true _
  have p2 : R.Pairwise _ := hR' ▸ tieLib_sorted false _
  have p : R.Pairwise fun x y => x.2 = y.2 → x.1 = y.1 := (p1.and p2).imp fun {x y} h => by
    simp only [if_true, Bool.false_eq_true, if_false] at h
    omega
  refine ht fun x hx y hy hc => ?_
  by_contra hne
  have := List.Pairwise.forall_of_forall_of_flip (l := R) (R := fun x y => x.2 = y.2 → x.1 = y.1) (fun _ _ _ => rfl) p (p.imp fun {x y} h h' => (h h'.symm).symm)
  exact hne (this ((m1 x _).2 ⟨hx, rfl⟩) ((m1 y _).2 ⟨hy, rfl⟩) hc)

/-- With a tie, every library has another one that builds a different vector. -/
theorem ties_another {L : SortLib} (hL : L.Valid) {vals : List Nat} (hv : ∀ v ∈ vals, v < 2 ^ 64 - 1) (hn : vals.length < 2 ^ 63) (ht : ¬ Spec.NoTies vals) :
    ∃ L' : SortLib, L'.Valid ∧ ∀ r r', SeqColl.ofValues L vals = some r → SeqColl.ofValues L' vals = some r' → r.1 ≠ r'.1 := by
  obtain ⟨r1, -, e1, -⟩ := ranked (tieLib_valid true) hv hn
  obtain ⟨r2, -, e2, -⟩ := ranked (tieLib_valid false) hv hn
  obtain ⟨r, -, e, -⟩ := ranked hL hv hn
  have hd := ties_differ hv hn ht e1 e2
  by_cases h : r.1 = r1.1
  · refine ⟨tieLib false, tieLib_valid _, fun a b ha hb => ?_⟩
    rw [e] at ha; rw [e2] at hb; cases ha; cases hb
    rw [h]; exact hd
  · refine ⟨tieLib true, tieLib_valid _, fun a b ha hb => ?_⟩
    rw [e] at ha; rw [e1] at hb; cases ha; cases hb
    exact h

/-- The vectors of counts can be read off the bytes. -/
theorem counts_inj {cs cs' : List CompactVector} (hl : cs.length = cs'.length) (hf : ∀ c ∈ cs, c.Fits) (hf' : ∀ c ∈ cs', c.Fits) {rest rest' : List Byte}
    (h : saveCounts cs ++ rest = saveCounts cs' ++ rest') : cs = cs' := by
  have h1 := getN_putAll (g := CompactVector.load) (fun c hc => C36_compact_vector (hf c hc)) rest
  have h2 := getN_putAll (g := CompactVector.load) (fun c hc => C36_compact_vector (hf' c hc)) rest'
  unfold saveCounts at h
  rw [h, hl, h2] at h1
  simp only [Option.some.injEq, Prod.mk.injEq] at h1
  exact h1.1.symm

/-- What a library makes of the counts of all orders. -/
def Colls (L : SortLib) (vals : List (List Nat)) (cs : List CompactVector) : Prop :=
  cs.length = vals.length ∧ (∀ c ∈ cs, c.Fits) ∧
    ∀ (k : Nat) (f : List Nat), vals[k]? = some f → ∃ r, SeqColl.ofValues L f = some r ∧ cs[k]? = some r.1

theorem colls_of {α : Type} {L : SortLib} (hL : L.Valid) {files : List (List (α × Nat))} {colls : List (CompactVector × List (Nat × Nat))}
    (e : Res.mapM (fun f : List (α × Nat) => Res.lift (SeqColl.ofValues L (f.map (·.2)))) files = some (.ok colls))
    (hn : ∀ f ∈ files, f.length < 2 ^ 57) : Colls L (files.map (·.map (·.2))) (colls.map (·.1)) := by
  have hl := Res.mapM_length e
  refine ⟨by rw [List.length_map, List.length_map, hl], ?_, ?_⟩
  · intro c hc
    obtain ⟨r, hr, rfl⟩ := List.mem_map.1 hc
    obtain ⟨i, hi⟩ := List.getElem?_of_mem hr
    obtain ⟨f, hf, e2⟩ := Res.mapM_get? e i r hi
    exact SeqColl.ofValues_fits hL (Res.lift_ok_iff e2) (by rw [List.length_map]; exact hn f (List.mem_of_getElem? hf))
  · intro k f hf
    rw [List.getElem?_map] at hf
    obtain ⟨g, hg, rfl⟩ := Option.map_eq_some_iff.1 hf
    have hk : k < colls.length := by rw [hl]; exact (List.getElem?_eq_some_iff.1 hg).1
    obtain ⟨f', hf', e2⟩ := Res.mapM_get? e k _ (List.getElem?_eq_getElem hk)
    rw [hg] at hf'; cases hf'
    exact ⟨_, Res.lift_ok_iff e2, by rw [List.getElem?_map, List.getElem?_eq_getElem hk]; rfl⟩

/-- The counts in what is written for a hash model. -/
theorem hash_counts {B : Nat} {L : SortLib} (hL : L.Valid) {mem extra : Nat} {hs : Nat → Mphf (List Byte) B} {files : List (List (List Byte × Nat))}
    (hn : ∀ f ∈ files, f.length < 2 ^ 57) {m : MphCount B} (e : MphCount.build L mem extra hs files = some (.ok m)) (c : Emphf (List Byte) B) :
    ∃ cs rest, m.save c = putU 1 files.length ++ (saveCounts cs ++ rest) ∧ Colls L (files.map (·.map (·.2))) cs := by
  unfold MphCount.build at e
  split at e
  · cases e
  obtain ⟨colls, e1, e⟩ := Res.bind_ok_iff e
  obtain ⟨ts, e2, e⟩ := Res.bind_ok_iff e
  cases e
  exact ⟨_, _, rfl, colls_of hL e1 hn⟩

/-- The counts in what is written for a trie. -/
theorem trie_counts {K : Type} [DecidableEq K] {G : GramsSt} {R : RanksSt} {L : SortLib} (hL : L.Valid) {hv : Mphf K 64} {ro : Nat}
    {files : List (List (List K × Nat))} (hn : ∀ f ∈ files, f.length < 2 ^ 57) {t : StCount K G R} (e : StCount.build L hv G R ro files = some (.ok t))
    (F : GramsFile G) (Fr : RanksFile R) (jp : EF) (c : Emphf K 64) (ro' : Nat) :
    ∃ cs rest, StCount.save F Fr jp c { t with ro := ro' } = putU 1 files.length ++ (putU 1 ro' ++ (saveCounts cs ++ rest)) ∧
      Colls L (files.map (·.map (·.2))) cs := by
  unfold StCount.build at e
  split at e
  · cases e
  obtain ⟨colls, e1, e⟩ := Res.bind_ok_iff e
  obtain ⟨rks, e2, e⟩ := Res.bind_ok_iff e
  obtain ⟨r0, e3, e⟩ := Res.bind_ok_iff e
  obtain ⟨g0, e4, e⟩ := Res.bind_ok_iff e
  obtain ⟨tb, e5, e⟩ := Res.bind_ok_iff e
  obtain ⟨f0, e6, e⟩ := Res.bind_ok_iff e
  obtain ⟨arrs, e7, e⟩ := Res.bind_ok_iff e
  cases e
  exact ⟨_, _, rfl, colls_of hL e1 hn⟩

/-- Different vectors give different bytes. -/
theorem colls_differ {L L' : SortLib} {vals : List (List Nat)} {cs cs' : List CompactVector} (h : Colls L vals cs) (h' : Colls L' vals cs') {f : List Nat}
    (hf : f ∈ vals) (hd : ∀ r r', SeqColl.ofValues L f = some r → SeqColl.ofValues L' f = some r' → r.1 ≠ r'.1) (rest rest' : List Byte) :
    saveCounts cs ++ rest ≠ saveCounts cs' ++ rest' := by
  intro e
  have hc := counts_inj (by rw [h.1, h'.1]) h.2.1 h'.2.1 e
  obtain ⟨k, hk⟩ := List.getElem?_of_mem hf
  obtain ⟨r, e1, e2⟩ := h.2.2 k f hk
  obtain ⟨r', e3, e4⟩ := h'.2.2 k f hk
  rw [hc, e4] at e2
  exact hd r r' e1 e3 (Option.some.inj e2).symm

end Repro

/-! ## Properties -/

section
variable {F : Type} [FloatArith F]
open Tools Repro

/-- **C70** (count tries): in the situation of C69, `build_trie` writes the same bytes in every environment that has the same arguments and input files: what
lies in memory after the arrays and the order of evaluation do not matter, and if no two counts of an order occur equally often, neither does the
library. -/
theorem C70_count_trie {E E' : ToolEnv F} (hE : Spec.ToolEnvOk E) (hE' : Spec.ToolEnvOk E') (hs : Spec.SameInputs E E')
    (a : TrieCommand F) (ha : Spec.ValidTrieArgs a.choice) (hv : a.choice.value = "count")
    (hun : ∀ u ∈ a.unk, u < 0) {U : List (List Byte)} {files : List (List (List (List Byte) × Nat))} (ho : a.order = files.length)
    (h : Spec.CountFiles U files (Spec.remapping a.choice)) (hp : a.choice.dataStructure = "pef_trie" → Spec.PefFiles U files (Spec.remapping a.choice))
    (hw : ∀ f ∈ files, f ≠ [] ∧ ∀ r ∈ f, ∀ w ∈ r.1, Spec.FileWord w) (hlen : ∀ f ∈ files, f.length < Spec.maxLines a.choice)
    (hb : E.hv.BuiltFrom U) (hh : Spec.RangeHashes E.hr files) (hlib : E'.L = E.L ∨ ∀ f ∈ files, Spec.NoTies (f.map (·.2)))
    {folder : List (List Byte)} (hf : folder.take files.length = files.map Spec.gramsText) (arpa : Option (List Byte)) :
    ∃ binary, buildTrie E a folder arpa = some (.ok (some binary)) ∧ buildTrie E' a folder arpa = some (.ok (some binary)) := by
  obtain ⟨binary, hbin, -⟩ := C69_count_trie_programs E hE a ha hv hun ho h hp hw hlen hb hh hf arpa
  refine ⟨binary, hbin, hbin ▸ ?_⟩
  clear hbin binary
  obtain ⟨L2, u2, d2, v2, w2, j2, j2', past2, swap2, st2, one2, rfl⟩ : ∃ L u d v w j j' past swap st one, E' = other E L u d v w j j' past swap st one :=
    ⟨_, _, _, _, _, _, _, _, _, _, _, hs⟩
  clear hs
  have x1 : ∀ k, u2 k ≠ [] := hE'.junkU
  have x2 : ∀ k, d2 k ≠ [] := hE'.junkD
  have x3 : ∀ k, j2 k ≠ [] := hE'.junk
  have x4 : L2.Valid := hE'.sort
  obtain ⟨header, c1, -, -, -⟩ := C35_trie_header a.choice ha
  obtain ⟨r1, r2, r3⟩ := type_ro a.choice ha
  have hlen0 : files.length ≤ folder.length := by
    have := congrArg List.length hf
    rw [List.length_take, List.length_map] at this
    omega
  generalize hro : Spec.remapping a.choice = ro at *
  have hord := h.order_min
  have hord' := h.order_max
  have hsz : ∀ f ∈ files, f.length < 2 ^ 57 := fun f hf => by have := TrieCount.len_of_size h hf; omega
  generalize hm : (if a.choice.remapping.getD 0 = 0 then MapperT.identity else .sortedArray) = m at *
  obtain ⟨r, hr⟩ : ∃ r, r = (match a.choice.ranks with
    | some r => if r = "PSEF" then RanksT.PSEF else if r = "PSPEF" then .PSPEF else .IC
    | none => .IC : RanksT) := ⟨_, rfl⟩
  have hmax : ∀ s, ∀ f ∈ files, f.length < (r.ranks s).maxLines := by
    intro s f hf'
    have h1 := hlen f hf'
    have h2 : Spec.maxLines a.choice = (r.ranks s).maxLines := by
      subst hr
      unfold Spec.maxLines
      cases e : a.choice.ranks with
      | none => simp [RanksT.ranks, PefRanks.maxLines]
      | some r =>
        rcases ha.ranks r e with rfl | rfl | rfl <;> simp [RanksT.ranks, PefRanks.maxLines]
    omega
  have hideal : (r.ranks swap2).ideal = (r.ranks E.swap).ideal := by cases r <;> rfl
  have hcoll : ∀ f ∈ files, SeqColl.ofValues L2 (f.map (·.2)) = SeqColl.ofValues E.L (f.map (·.2)) := by
    intro f hf
    rcases hlib with e | e
    · rw [show L2 = E.L from e]
    · exact ofValues_unique x4 hE.sort (e f hf)
  have hR := (r.ranks E.swap).stores hE.junkU hE.junkD hE.junkU hE.junkD hE.ji hE.je
  have hR2 := (r.ranks swap2).stores x1 x2 x1 x2 hE.ji hE.je
  rw [hideal] at hR2
  have tr := ranks_twin r E.swap swap2 E.junkU E.junkD u2 d2 E.ji E.je
  have hbody : ∀ t, t = Spec.trieType a.choice → (other E L2 u2 d2 v2 w2 j2 j2' past2 swap2 st2 one2).countBody ro (files.map Spec.gramsText) t = E.countBody ro (files.map Spec.gramsText) t := by
    rintro t rfl
    rcases ha.dataStructure with hd | hd
    · have ht : Spec.trieType a.choice = .trieCount m r .fastEF := by
        unfold Spec.trieType
        rw [if_pos hv, if_pos hd, hm, hr]
        rfl
      rw [ht]
      unfold ToolEnv.countBody
      simp only
      obtain ⟨t, e, -⟩ := TrieCount.build_ok hE.sort (G := (GramsData.fastEF E.hr E.c' E.ju).limit) (ex := fun _ _ => True) h.data h.order_min h.order_max
        h.remapping h.counts hsz hb (fun k prev curr h1 h2 => by
          refine GramsData.limit_exact (fun d ed => ?_) (TrieCount.fastEF_levels h hh k prev curr h1 h2)
          obtain ⟨ptrs', q1, q2, -⟩ :=
            C38_pointers_delimit_children (pat := List.dropLast) (Trie.lex_irrefl U) (Trie.lex_trans U) (h.data.sorted k prev h1)
              (Trie.patterns_sorted (h.data.len _ curr h2) (h.data.words _ curr h2) (h.data.sorted _ curr h2)) (h.data.prefix_closed k prev curr h1 h2)
          rw [q2] at q1
          exact fastEF_level_fits h hh hE.c' hE.ju k prev curr h1 h2 _ _ d q1 (by rw [List.length_map]) ed) (PefRanks.exact h (r.ranks E.swap) (hmax _))
      have hG := GramsFile.fastEF_stores (hr := E.hr) hE.ju (junk := E.jg) (junk' := E.jg) hE.jg
      obtain ⟨t1, t2, b1, b2, b3⟩ := count_twin hG hG hR hR2 (gdata_twin _ _) tr e E.jp E.c
      rw [r1, StCount.buildFiles_eq L2 h hw, StCount.buildFiles_eq E.L h hw, trie_lib hcoll, b1, b2, Res.bind_ok, Res.bind_ok, b3]
    · have hd' : a.choice.dataStructure ≠ "ef_trie" := by rw [hd]; decide
      have ht : Spec.trieType a.choice = .trieCount m r .uniformPEF := by
        unfold Spec.trieType
        rw [if_pos hv, if_neg hd', hm, hr]
        rfl
      rw [ht]
      unfold ToolEnv.countBody
      simp only
      obtain ⟨t, e, -⟩ := TrieCount.build_ok hE.sort (ex := PefTrie.ClearAt U (files.map (·.map (·.1))) ro) h.data h.order_min h.order_max h.remapping
        h.counts hsz hb (PefTrie.grams_exact h (hp hd)) (PefRanks.exact h (r.ranks E.swap) (hmax _))
      have hG := GramsFile.pef_stores hE.junkU hE.junkD hE.junkU hE.junkD
      have hG2 := GramsFile.pef_stores x1 x2 x1 x2
      obtain ⟨t1, t2, b1, b2, b3⟩ := count_twin hG hG2 hR hR2 (pef_twin _ _ _ _) tr e E.jp E.c
      rw [r1, StCount.buildFiles_eq L2 h hw, StCount.buildFiles_eq E.L h hw, trie_lib hcoll, b1, b2, Res.bind_ok, Res.bind_ok, b3]
  unfold buildTrie
  rw [ho, checkOrder_ok hord hord', Res.bind_ok, checkUnk_ok hun, Res.bind_ok, c1, Res.bind_ok, Res.bind_ok, Res.bind_ok, Res.bind_ok, hv, r2,
    Nat.mod_eq_of_lt (a := files.length) (by omega)]
  unfold ToolEnv.writeFile
  simp only [beq_self_eq_true, if_true]
  unfold gramsFiles
  rw [if_neg (by omega), hf, Res.bind_ok, Res.bind_ok, hbody _ rfl]

/-- **C70** (backoff tries): the same, in the situation of C69; the builders of backoff models use no hash table and sort floats only. -/
theorem C70_backoff_trie {E E' : ToolEnv F} (hE : Spec.ToolEnvOk E) (hE' : Spec.ToolEnvOk E') (hs : Spec.SameInputs E E')
    (hsort : ∀ l, (E.sort l).Perm l ∧ (E.sort l).Pairwise (· ≤ ·))
    (a : TrieCommand F) (ha : Spec.ValidTrieArgs a.choice) (hv : a.choice.value = "prob_backoff")
    (hun : ∀ u ∈ a.unk, u < 0) (lead gap : Nat) {sections : List (List (Spec.ArpaLine F) × Nat)} {tail : List Byte} (ho : a.order = sections.length)
    (hg : Spec.GoodArpa E.strtod sections tail)
    {U : List (List Byte)} {data : List (List (List (List Byte) × F × F))} {pb bb : Nat} (hpb : pb = a.p.getD 8) (hbb : bb = a.b.getD 8)
    (hd : Spec.ArpaLists sections data) (hwords : ∀ f ∈ data, ∀ r ∈ f, ∀ w ∈ r.1, w ≠ [] ∧ sp ∉ w)
    (h : Spec.ProbFiles U data (Spec.remapping a.choice))
    (hp : a.choice.dataStructure = "pef_trie" → Spec.PefFiles U (TrieProb.asCounts data) (Spec.remapping a.choice))
    (hq : Spec.Quantisable data pb bb) (hbits : pb + bb ≤ 58)
    (hfb : ∀ f0, data[0]? = some f0 → ∀ r ∈ f0, E.fb.dec (E.fb.enc r.2.1) = r.2.1 ∧ E.fb.dec (E.fb.enc r.2.2) = r.2.2)
    (hcb : ∀ ps bs, Quant.codebooks E.sort E.negInf pb bb data = some (.ok (ps, bs)) → ∀ l ∈ ps ++ bs, ∀ x ∈ l, Spec.IsFloat E.fb x)
    (hunk : Spec.IsFloat E.fb (Spec.unkProb Spec.unkText E.defaultUnk (data.getD 0 []) (a.unk.getD E.defaultUnk)))
    (hb : E.hv.BuiltFrom U) (hh : Spec.RangeHashes E.hr (TrieProb.asCounts data)) (folder : List (List Byte)) :
    ∃ binary, buildTrie E a folder (some (Spec.arpaText lead gap sections tail)) = some (.ok (some binary)) ∧
      buildTrie E' a folder (some (Spec.arpaText lead gap sections tail)) = some (.ok (some binary)) := by
  obtain ⟨binary, -, -, hbin, -⟩ := C69_backoff_trie_programs E hE hsort a ha hv hun lead gap ho hg hpb hbb hd hwords h hp hq hbits hfb hcb hunk hb hh folder
  refine ⟨binary, hbin, hbin ▸ ?_⟩
  clear hbin binary
  obtain ⟨L2, u2, d2, v2, w2, j2, j2', past2, swap2, st2, one2, rfl⟩ : ∃ L u d v w j j' past swap st one, E' = other E L u d v w j j' past swap st one :=
    ⟨_, _, _, _, _, _, _, _, _, _, _, hs⟩
  clear hs
  have x1 : ∀ k, u2 k ≠ [] := hE'.junkU
  have x2 : ∀ k, d2 k ≠ [] := hE'.junkD
  have x3 : ∀ k, j2 k ≠ [] := hE'.junk
  have x4 : L2.Valid := hE'.sort
  obtain ⟨header, c1, -, -, -⟩ := C35_trie_header a.choice ha
  obtain ⟨r1, r2, r3⟩ := type_ro a.choice ha
  generalize hro : Spec.remapping a.choice = ro at *
  have hord := h.arpa.order_min
  have hord' := h.arpa.order_max
  have hls : sections.length = data.length := by
    have := congrArg List.length hd
    unfold Spec.lines at this
    rw [List.length_map, List.length_map] at this
    exact this
  have hvc : a.choice.value ≠ "count" := by rw [hv]; decide
  generalize hm : (if a.choice.remapping.getD 0 = 0 then MapperT.identity else .sortedArray) = m at *
  have hq1 := hq.probs.2
  have hq2 := hq.backoffs.2
  have hbody : ∀ t, t = Spec.trieType a.choice → (other E L2 u2 d2 v2 w2 j2 j2' past2 swap2 st2 one2).probBody ro sections.length (a.unk.getD E.defaultUnk) pb bb (Spec.arpaText lead gap sections tail) t =
      E.probBody ro sections.length (a.unk.getD E.defaultUnk) pb bb (Spec.arpaText lead gap sections tail) t := by
    rintro t rfl
    rcases ha.dataStructure with hds | hds
    · have ht : Spec.trieType a.choice = .trieProb m .fastEF := by
        unfold Spec.trieType
        rw [if_neg hvc, if_pos hds, hm]
      rw [ht]
      unfold ToolEnv.probBody
      rfl
    · have hds' : a.choice.dataStructure ≠ "ef_trie" := by rw [hds]; decide
      have ht : Spec.trieType a.choice = .trieProb m .uniformPEF := by
        unfold Spec.trieType
        rw [if_neg hvc, if_neg hds', hm]
      rw [ht]
      unfold ToolEnv.probBody
      simp only
      obtain ⟨ps, bs, f1, f2, f3⟩ := Quant.codebooks_ok hsort E.negInf h.arpa.order_min hq
      have hlen : ∀ f ∈ data, f.length < 2 ^ 56 := by
        intro f hf
        have := TrieCount.len_of_size (TrieProb.asCounts_ok h) (f := f.map fun r => (r.1.reverse, 0)) (List.mem_map.2 ⟨f, hf, rfl⟩)
        rwa [List.length_map] at this
      obtain ⟨t, g1, -, -⟩ := TrieProb.build_any E.fb E.negInf unkBytes E.defaultUnk (a.unk.getD E.defaultUnk) h hb (G := PefTrie.ideal) (J := RanksData.cv.ideal)
        (ex := PefTrie.ClearAt U (data.map (·.map (·.1.reverse))) ro)
        (fun k prev curr h1 h2 => by
          have := PefTrie.grams_exact (TrieProb.asCounts_ok h) (hp hds) k prev curr
          rw [TrieProb.asCounts_map] at this
          exact this h1 h2)
        (fun k f rs hf hl hr => by
          have := hlen f (List.mem_of_getElem? hf)
          refine RanksData.ideal_exact ⟨fun mem hm => ?_, fun d e => CompactVector.buildFrom_fits (Res.lift_ok_iff e) (by rw [List.length_map]; omega)⟩
          rw [RanksData.cv_impl]
          exact TrieImpl.cv_exact (junk := fun _ => mem) hm hr) hbits f1 f2
      have hG := GramsFile.pef_stores hE.junkU hE.junkD hE.junkU hE.junkD
      have hG2 := GramsFile.pef_stores x1 x2 x1 x2
      have hR := RanksFile.data_stores .cv hE.junk hE.junk (junk := E.jr) (junk' := E.jr) hE.jr
      have hR2 := RanksFile.data_stores .cv x3 x3 (junk := E.jr) (junk' := E.jr) hE.jr
      obtain ⟨t1, t2, b1, b2, b3⟩ := prob_twin hG hG2 hR hR2 (pef_twin _ _ _ _) (rdata_twin _ _ _ _) g1 E.jp E.c
      rw [r1, StProb.buildArpa_eq lead gap hg E.fb E.sort E.negInf E.defaultUnk _ ro pb bb hd hwords h.arpa,
        StProb.buildArpa_eq lead gap hg E.fb E.sort E.negInf E.defaultUnk _ ro pb bb hd hwords h.arpa, b1, b2, Res.bind_ok, Res.bind_ok, b3]
  unfold buildTrie
  rw [ho, checkOrder_ok (by omega) (by omega), Res.bind_ok, checkUnk_ok hun, Res.bind_ok, c1, Res.bind_ok, Res.bind_ok, Res.bind_ok, Res.bind_ok, r2,
    Nat.mod_eq_of_lt (a := sections.length) (by omega), ← hpb, ← hbb, Nat.mod_eq_of_lt (a := pb) (by omega), Nat.mod_eq_of_lt (a := bb) (by omega)]
  unfold ToolEnv.writeFile
  simp only [beq_eq_false_iff_ne.2 hvc, Bool.false_eq_true, if_false]
  rw [Res.lift_some, Res.bind_ok, Res.bind_ok, hbody _ rfl]

/-- **C70** (hash models): whatever the input files, valid or not, the result of `build_hash` depends only on them, on the arguments and, for counts, on the
library. -/
theorem C70_hash {E E' : ToolEnv F} (hs : Spec.SameInputs E E') (a : HashCommand F) (hlib : a.choice.value = "count" → E'.L = E.L)
    (folder : List (List Byte)) (arpa : Option (List Byte)) : buildHash E' a folder arpa = buildHash E a folder arpa := by
  obtain ⟨L2, u2, d2, v2, w2, j2, j2', past2, swap2, st2, one2, rfl⟩ : ∃ L u d v w j j' past swap st one, E' = other E L u d v w j j' past swap st one :=
    ⟨_, _, _, _, _, _, _, _, _, _, _, hs⟩
  clear hs
  by_cases hva : Spec.ValidHashArgs a.choice
  · obtain ⟨header, c1, -⟩ := C35_hash_header a.choice hva
    unfold buildHash
    rw [c1, Res.bind_ok, Res.bind_ok]
    by_cases hv : a.choice.value = "count"
    · have hL : L2 = E.L := hlib hv
      subst hL
      have ht : Spec.hashType a.choice = .mphCount (8 * a.choice.hashKeyBytes) := by unfold Spec.hashType; rw [if_pos hv]
      rw [ht, hv]
      rfl
    · have ht : Spec.hashType a.choice = .mphProb (8 * a.choice.hashKeyBytes) := by unfold Spec.hashType; rw [if_neg hv]
      rw [ht, beq_eq_false_iff_ne.2 hv]
      rfl
  · have hch : buildHashChoice a.choice = some (.error ()) := by
      unfold buildHashChoice
      by_cases hk : a.choice.hashKeyBytes ≠ 4 ∧ a.choice.hashKeyBytes ≠ 8
      · rw [if_pos hk]; rfl
      · have h : a.choice.value ≠ "count" ∧ a.choice.value ≠ "prob_backoff" := by
          refine ⟨fun h => hva ⟨.inl h, ?_⟩, fun h => hva ⟨.inr h, ?_⟩⟩ <;> omega
        rw [if_neg hk]
        simp only [if_neg h.1, if_neg h.2]
        rfl
    have hbe : ∀ {α β : Type} (f : α → Res β), Res.bind (some (.error ()) : Res α) f = some (.error ()) := fun f => rfl
    unfold buildHash
    rw [hch]
    simp only [hbe]

/-- **C70** (hash count models): in the situation of C69 the result does not depend on the library either, if no two counts of an order occur equally
often. -/
theorem C70_hash_count {E E' : ToolEnv F} (hE : E.L.Valid) (hE' : E'.L.Valid) (hs : Spec.SameInputs E E') (a : HashCommand F)
    (ha : Spec.ValidHashArgs a.choice) (hv : a.choice.value = "count") (hun : ∀ u ∈ a.unk, u < 0)
    {files : List (List (List (List Byte) × Nat))} (ho : a.order = files.length) (h : Spec.CountLists E.mem files)
    (hw : ∀ f ∈ files, ∀ r ∈ f, ∀ w ∈ r.1, Spec.FileWord w)
    (hn : ∀ f ∈ files, f.length < (if a.choice.hashKeyBytes = 4 then 2 ^ 32 else 2 ^ 57)) (hties : ∀ f ∈ files, Spec.NoTies (f.map (·.2)))
    {folder : List (List Byte)} (hf : folder.take files.length = files.map Spec.gramsText) (arpa : Option (List Byte)) :
    buildHash E' a folder arpa = buildHash E a folder arpa := by
  obtain ⟨L2, u2, d2, v2, w2, j2, j2', past2, swap2, st2, one2, rfl⟩ : ∃ L u d v w j j' past swap st one, E' = other E L u d v w j j' past swap st one :=
    ⟨_, _, _, _, _, _, _, _, _, _, _, hs⟩
  clear hs
  have x4 : L2.Valid := hE'
  obtain ⟨header, c1, -⟩ := C35_hash_header a.choice ha
  have hn' : ∀ f ∈ files, f.length < 2 ^ 57 := by
    intro f hf
    have := hn f hf
    split at this <;> omega
  have hcoll : ∀ f ∈ Spec.lines files, SeqColl.ofValues L2 (f.map (·.2)) = SeqColl.ofValues E.L (f.map (·.2)) := by
    intro f hf
    obtain ⟨g, hg, e⟩ := lines_counts hf
    rw [e]
    exact ofValues_unique x4 hE (hties g hg)
  have hlen0 : files.length ≤ folder.length := by
    have := congrArg List.length hf
    rw [List.length_take, List.length_map] at this
    omega
  have hord := h.order_min
  have hord' := h.order_max
  have ht : Spec.hashType a.choice = .mphCount (8 * a.choice.hashKeyBytes) := by unfold Spec.hashType; rw [if_pos hv]
  have hbody : (other E L2 u2 d2 v2 w2 j2 j2' past2 swap2 st2 one2).countBody 0 (files.map Spec.gramsText) (.mphCount (8 * a.choice.hashKeyBytes)) =
      E.countBody 0 (files.map Spec.gramsText) (.mphCount (8 * a.choice.hashKeyBytes)) := by
    unfold ToolEnv.countBody
    simp only
    rw [hash_files h hw hn', hash_files h hw hn', hash_files h hw hn', hash_files h hw hn', hash_lib hcoll, hash_lib hcoll]
  unfold buildHash
  rw [ho, checkOrder_ok hord hord', Res.bind_ok, checkUnk_ok hun, Res.bind_ok, c1, Res.bind_ok, Res.bind_ok, Res.bind_ok, hv, ht,
    Nat.mod_eq_of_lt (by omega)]
  unfold ToolEnv.writeFile
  simp only [beq_self_eq_true, if_true]
  unfold gramsFiles
  rw [if_neg (by omega), hf, Res.bind_ok, Res.bind_ok, hbody]
  rfl

/-- **C70**, defect (hash count models): if two counts of an order do occur equally often, then whatever library was used, there is another one that also
behaves as the standard demands, with which the file is different. -/
theorem C70_hash_ties_defect (E : ToolEnv F) (hL : E.L.Valid) (a : HashCommand F) (ha : Spec.ValidHashArgs a.choice) (hv : a.choice.value = "count")
    (hun : ∀ u ∈ a.unk, u < 0) {files : List (List (List (List Byte) × Nat))} (ho : a.order = files.length) (h : Spec.CountLists E.mem files)
    (hw : ∀ f ∈ files, ∀ r ∈ f, ∀ w ∈ r.1, Spec.FileWord w) (hn : ∀ f ∈ files, f.length < if a.choice.hashKeyBytes = 4 then 2 ^ 26 else 2 ^ 57)
    (hb : Spec.HashesBuilt E a.choice.hashKeyBytes (files.map (·.map fun r => joinSp r.1)))
    (ht : ∃ f ∈ files, ¬ Spec.NoTies (f.map (·.2)))
    {folder : List (List Byte)} (hf : folder.take files.length = files.map Spec.gramsText) (arpa : Option (List Byte)) :
    ∃ L' : SortLib, L'.Valid ∧ ∃ binary binary', buildHash E a folder arpa = some (.ok (some binary)) ∧
      buildHash { E with L := L' } a folder arpa = some (.ok (some binary')) ∧ binary ≠ binary' := by
  obtain ⟨f, hfm, hft⟩ := ht
  have hn' : ∀ f ∈ files, f.length < 2 ^ 57 := by
    intro f hf
    have := hn f hf
    split at this <;> omega
  obtain ⟨L', hL', hd⟩ := ties_another hL (vals := f.map (·.2)) (by
    intro v hv
    obtain ⟨r, hr, rfl⟩ := List.mem_map.1 hv
    exact h.counts f hfm r hr) (by rw [List.length_map]; have := hn' f hfm; omega) hft
  obtain ⟨b1, e1, -⟩ := C69_hash_count_programs E hL a ha hv hun ho h hw hn hb hf arpa
  obtain ⟨b2, e2, -⟩ := C69_hash_count_programs { E with L := L' } hL' a ha hv hun ho h hw hn hb hf arpa
  refine ⟨L', hL', b1, b2, e1, e2, ?_⟩
  obtain ⟨header, c1, -⟩ := C35_hash_header a.choice ha
  have hlen0 : files.length ≤ folder.length := by
    have := congrArg List.length hf
    rw [List.length_take, List.length_map] at this
    omega
  have hord := h.order_min
  have hord' := h.order_max
  have hty : Spec.hashType a.choice = .mphCount (8 * a.choice.hashKeyBytes) := by unfold Spec.hashType; rw [if_pos hv]
  have hbody : ∀ (E : ToolEnv F) (b : List Byte), buildHash E a folder arpa = some (.ok (some b)) →
      ∃ body, E.countBody 0 (files.map Spec.gramsText) (.mphCount (8 * a.choice.hashKeyBytes)) = some (.ok body) ∧ b = saveFile header body := by
    intro E b e
    unfold buildHash at e
    rw [ho, checkOrder_ok hord hord', Res.bind_ok, checkUnk_ok hun, Res.bind_ok, c1, Res.bind_ok, hv, hty, Nat.mod_eq_of_lt (by omega)] at e
    unfold ToolEnv.writeFile at e
    simp only [beq_self_eq_true, if_true] at e
    unfold gramsFiles at e
    rw [if_neg (by omega), hf, Res.bind_ok] at e
    obtain ⟨body, q1, q2⟩ := Res.bind_ok_iff e
    cases q2
    exact ⟨body, q1, rfl⟩
  have hlines : ∀ f ∈ Spec.lines files, f.length < 2 ^ 57 := by
    intro f hf
    obtain ⟨g, hg, rfl⟩ := List.mem_map.1 hf
    rw [List.length_map]; exact hn' g hg
  have hvals : (Spec.lines files).map (·.map (·.2)) = files.map (·.map (·.2)) := by
    unfold Spec.lines
    rw [List.map_map]
    refine List.map_congr_left fun f hf => ?_
    rw [Function.comp, List.map_map]
    rfl
  have hcounts : ∀ (E2 : ToolEnv F) (body : List Byte), E2.L.Valid → E2.mem = E.mem →
      E2.countBody 0 (files.map Spec.gramsText) (.mphCount (8 * a.choice.hashKeyBytes)) = some (.ok body) →
      ∃ cs rest, body = putU 1 files.length ++ (saveCounts cs ++ rest) ∧ Colls E2.L (files.map (·.map (·.2))) cs := by
    intro E2 body hL hm e
    have h' : Spec.CountLists E2.mem files := hm ▸ h
    have hll : (Spec.lines files).length = files.length := by unfold Spec.lines; rw [List.length_map]
    unfold ToolEnv.countBody at e
    simp only at e
    split at e
    · rw [hash_files h' hw hn'] at e
      obtain ⟨m, q1, q2⟩ := Res.bind_ok_iff e
      cases q2
      have := hash_counts hL hlines q1 E2.c32
      rwa [hvals, hll] at this
    · split at e
      · rw [hash_files h' hw hn'] at e
        obtain ⟨m, q1, q2⟩ := Res.bind_ok_iff e
        cases q2
        have := hash_counts hL hlines q1 E2.c64
        rwa [hvals, hll] at this
      · cases e
  obtain ⟨x1, y1, rfl⟩ := hbody E b1 e1
  obtain ⟨x2, y2, rfl⟩ := hbody _ b2 e2
  obtain ⟨cs, rest, rfl, k1⟩ := hcounts E x1 hL rfl y1
  obtain ⟨cs', rest', rfl, k2⟩ := hcounts { E with L := L' } x2 hL' rfl y2
  intro he
  unfold saveFile at he
  exact colls_differ k1 k2 (List.mem_map.2 ⟨f, hfm, rfl⟩) hd rest rest' (List.append_cancel_left (List.append_cancel_left he))

/-- **C70**, defect (count tries): the same. -/
theorem C70_trie_ties_defect (E : ToolEnv F) (hE : Spec.ToolEnvOk E) (a : TrieCommand F) (ha : Spec.ValidTrieArgs a.choice) (hv : a.choice.value = "count")
    (hun : ∀ u ∈ a.unk, u < 0) {U : List (List Byte)} {files : List (List (List (List Byte) × Nat))} (ho : a.order = files.length)
    (h : Spec.CountFiles U files (Spec.remapping a.choice)) (hp : a.choice.dataStructure = "pef_trie" → Spec.PefFiles U files (Spec.remapping a.choice))
    (hw : ∀ f ∈ files, f ≠ [] ∧ ∀ r ∈ f, ∀ w ∈ r.1, Spec.FileWord w) (hlen : ∀ f ∈ files, f.length < Spec.maxLines a.choice)
    (hb : E.hv.BuiltFrom U) (hh : Spec.RangeHashes E.hr files) (ht : ∃ f ∈ files, ¬ Spec.NoTies (f.map (·.2)))
    {folder : List (List Byte)} (hf : folder.take files.length = files.map Spec.gramsText) (arpa : Option (List Byte)) :
    ∃ L' : SortLib, L'.Valid ∧ ∃ binary binary', buildTrie E a folder arpa = some (.ok (some binary)) ∧
      buildTrie { E with L := L' } a folder arpa = some (.ok (some binary')) ∧ binary ≠ binary' := by
  obtain ⟨f, hfm, hft⟩ := ht
  have hsz : ∀ f ∈ files, f.length < 2 ^ 57 := fun f hf => by have := TrieCount.len_of_size h hf; omega
  obtain ⟨L', hL', hd⟩ := ties_another hE.sort (vals := f.map (·.2)) (by
    intro v hv
    obtain ⟨r, hr, rfl⟩ := List.mem_map.1 hv
    exact h.counts f hfm r hr) (by rw [List.length_map]; have := hsz f hfm; omega) hft
  obtain ⟨b1, e1, -⟩ := C69_count_trie_programs E hE a ha hv hun ho h hp hw hlen hb hh hf arpa
  obtain ⟨b2, e2, -⟩ := C69_count_trie_programs { E with L := L' } { hE with sort := hL' } a ha hv hun ho h hp hw hlen hb hh hf arpa
  refine ⟨L', hL', b1, b2, e1, e2, ?_⟩
  obtain ⟨header, c1, -⟩ := C35_trie_header a.choice ha
  obtain ⟨r1, r2, r3⟩ := type_ro a.choice ha
  have hlen0 : files.length ≤ folder.length := by
    have := congrArg List.length hf
    rw [List.length_take, List.length_map] at this
    omega
  have hord := h.order_min
  have hord' := h.order_max
  generalize hro : Spec.remapping a.choice = ro at *
  generalize hm : (if a.choice.remapping.getD 0 = 0 then MapperT.identity else .sortedArray) = m at *
  have hbody : ∀ (E : ToolEnv F) (b : List Byte), buildTrie E a folder arpa = some (.ok (some b)) →
      ∃ body, E.countBody ro (files.map Spec.gramsText) (Spec.trieType a.choice) = some (.ok body) ∧ b = saveFile header body := by
    intro E b e
    unfold buildTrie at e
    rw [ho, checkOrder_ok hord hord', Res.bind_ok, checkUnk_ok hun, Res.bind_ok, c1, Res.bind_ok, hv, r2, Nat.mod_eq_of_lt (a := files.length) (by omega)] at e
    unfold ToolEnv.writeFile at e
    simp only [beq_self_eq_true, if_true] at e
    unfold gramsFiles at e
    rw [if_neg (by omega), hf, Res.bind_ok] at e
    obtain ⟨body, q1, q2⟩ := Res.bind_ok_iff e
    cases q2
    exact ⟨body, q1, rfl⟩
  have hcounts : ∀ (E2 : ToolEnv F) (body : List Byte), E2.L.Valid →
      E2.countBody ro (files.map Spec.gramsText) (Spec.trieType a.choice) = some (.ok body) →
      ∃ cs rest, body = putU 1 files.length ++ (putU 1 ro ++ (saveCounts cs ++ rest)) ∧ Colls E2.L (files.map (·.map (·.2))) cs := by
    intro E2 body hL e
    obtain ⟨r, hr⟩ : ∃ r, Spec.trieType a.choice = .trieCount m r (if a.choice.dataStructure = "ef_trie" then .fastEF else .uniformPEF) := by
      unfold Spec.trieType
      rw [if_pos hv, hm]
      split <;> exact ⟨_, rfl⟩
    rw [hr] at e
    rcases ha.dataStructure with hds | hds
    · rw [if_pos hds] at e
      unfold ToolEnv.countBody at e
      simp only at e
      rw [r1, StCount.buildFiles_eq E2.L h hw] at e
      obtain ⟨t, q1, q2⟩ := Res.bind_ok_iff e
      cases q2
      exact trie_counts hL hsz q1 _ _ _ _ _
    · rw [if_neg (by rw [hds]; decide)] at e
      unfold ToolEnv.countBody at e
      simp only at e
      rw [r1, StCount.buildFiles_eq E2.L h hw] at e
      obtain ⟨t, q1, q2⟩ := Res.bind_ok_iff e
      cases q2
      exact trie_counts hL hsz q1 _ _ _ _ _
  obtain ⟨x1, y1, rfl⟩ := hbody E b1 e1
  obtain ⟨x2, y2, rfl⟩ := hbody _ b2 e2
  obtain ⟨cs, rest, rfl, k1⟩ := hcounts E x1 hE.sort y1
  obtain ⟨cs', rest', rfl, k2⟩ := hcounts { E with L := L' } x2 hL' y2
  intro he
  unfold saveFile at he
  exact colls_differ k1 k2 (List.mem_map.2 ⟨f, hfm, rfl⟩) hd rest rest'
    (List.append_cancel_left (List.append_cancel_left (List.append_cancel_left he)))

/-- **C70**, defect (uninitialised members): a `fast_ef_sequence` none of whose ranges is long never builds its table of offsets, and saves it all the same:
two processes in whose memory different tables happen to be there write different bytes. -/
theorem C70_uninitialised_defect {c : Emphf Nat 64} {f : FastEF} (hf : f.offsets = none) {ju ju' : UTable Nat 64} (hj : ju.Fits c) (hj' : ju'.Fits c)
    (h : ju ≠ ju') : f.save c ju ≠ f.save c ju' := by
  intro e
  unfold FastEF.save at e
  rw [hf] at e
  have e := List.append_cancel_left e
  simp only [Option.getD_none] at e
  generalize putVec (putU 8) f.samplings ++ (f.ef.high.save ++ (f.ef.d1.save ++ (f.ef.low.save ++ putU 1 f.ef.l))) = rest at e
  have h1 := (C36_tables (B := 64) rfl).2.2 _ hj rest
  have h2 := (C36_tables (B := 64) rfl).2.2 _ hj' rest
  rw [e, h2] at h1
  simp only [Option.some.injEq, Prod.mk.injEq] at h1
  exact h h1.1.symm

end

namespace ReproExample
open SaveExample EndExample FilesExample TrieProbExample ToolsExample

/-- Another process, in which everything that the program does not control is different, and another library. -/
noncomputable def env2 : ToolEnv ℚ :=
  Repro.other (env MphCountExample.hs (codecOf []) 100) (Repro.tieLib false) (fun _ => [1, 2]) (fun _ => [5]) (fun _ => [8]) (fun _ => [6]) (fun _ => [3#64])
    (fun _ => [9#64]) [1#64] false 11 3

theorem env2_ok : Spec.ToolEnvOk env2 :=
  let h := env_ok MphCountExample.hs (codecOf []) 100
  { sort := Repro.tieLib_valid _, c := h.c, c' := h.c', ju := h.ju, jg := h.jg, ji := h.ji, je := h.je, jp := h.jp, jr := h.jr
    junkU := by simp [env2], junkD := by simp [env2], junkU' := by simp [env2], junkD' := by simp [env2], junk := by simp [env2], junk' := by simp [env2]
    past := by simp [env2] }

/-- Of the counts 5, 7, 5 and 3, 2, 3 no two occur equally often. -/
theorem noTies : ∀ f ∈ MphCountExample.files, Spec.NoTies (f.map (·.2)) := by unfold Spec.NoTies; decide

/-- `build_trie pef_trie 2 count --ranks PSPEF` in two processes, with two libraries. -/
example : ∃ binary, buildTrie (env MphCountExample.hs (codecOf []) 100) ⟨⟨"pef_trie", "count", none, some "PSPEF"⟩, 2, none, none, some 3⟩
      (MphCountExample.files.map Spec.gramsText ++ [str "no file of n-grams"]) none = some (.ok (some binary)) ∧
    buildTrie env2 ⟨⟨"pef_trie", "count", none, some "PSPEF"⟩, 2, none, none, some 3⟩
      (MphCountExample.files.map Spec.gramsText ++ [str "no file of n-grams"]) none = some (.ok (some binary)) :=
  C70_count_trie (env_ok _ _ _) env2_ok rfl
    ⟨⟨"pef_trie", "count", none, some "PSPEF"⟩, 2, none, none, some 3⟩ ⟨.inr rfl, .inl rfl, by simp, by simp⟩ rfl (by simp) (files := MphCountExample.files) (by decide)
    files_trie (fun _ => CheckExample.files_pef) files_words (by simp [MphCountExample.files, Spec.maxLines]) (TextExample.built3 (keys := U) rfl (by decide)) files_hashes
    (.inr noTies) (folder := MphCountExample.files.map Spec.gramsText ++ [str "no file of n-grams"]) (by rfl) none

/-- The same of `build_hash 2 8 count`. -/
example : buildHash env2 ⟨⟨"count", 8⟩, 2, none, none, none⟩ (MphCountExample.files.map Spec.gramsText) none =
    buildHash (env MphCountExample.hs (codecOf []) 100) ⟨⟨"count", 8⟩, 2, none, none, none⟩ (MphCountExample.files.map Spec.gramsText) none :=
  C70_hash_count (E := env MphCountExample.hs (codecOf []) 100) (E' := env2) exLib_valid (Repro.tieLib_valid _) rfl _ ⟨.inl rfl, .inr rfl⟩ rfl (by simp) (files := MphCountExample.files) (by decide) MphCountExample.files_ok
    (fun f hf => (files_words f hf).2) (by decide) noTies (by rfl) none

/-- `build_hash 3 4 prob_backoff` without a file of n-grams, and whatever there is instead of an ARPA file. -/
example (arpa : Option (List Byte)) : buildHash env2 ⟨⟨"prob_backoff", 4⟩, 3, none, none, none⟩ [] arpa =
    buildHash (env MphCountExample.hs (codecOf []) 100) ⟨⟨"prob_backoff", 4⟩, 3, none, none, none⟩ [] arpa :=
  C70_hash (E := env MphCountExample.hs (codecOf []) 100) (E' := env2) rfl _ (fun h => absurd h (by decide)) _ _

/-- Another process that reads ARPA files. -/
noncomputable def env3 : ToolEnv ℚ :=
  Repro.other (env MphProbExample.hs (codecOf []) 200) (Repro.tieLib false) (fun _ => [1, 2]) (fun _ => [5]) (fun _ => [8]) (fun _ => [6]) (fun _ => [3#64])
    (fun _ => [9#64]) [1#64] false 11 3

theorem env3_ok : Spec.ToolEnvOk env3 :=
  let h := env_ok MphProbExample.hs (codecOf []) 200
  { sort := Repro.tieLib_valid _, c := h.c, c' := h.c', ju := h.ju, jg := h.jg, ji := h.ji, je := h.je, jp := h.jp, jr := h.jr
    junkU := by simp [env3], junkD := by simp [env3], junkU' := by simp [env3], junkD' := by simp [env3], junk := by simp [env3], junk' := by simp [env3]
    past := by simp [env3] }

/-- `build_trie pef_trie 3 prob_backoff --remapping 1`. -/
example := C70_backoff_trie (env_ok MphProbExample.hs (codecOf []) 200) env3_ok rfl sortQ_ok
    ⟨⟨"pef_trie", "prob_backoff", some 1, none⟩, 3, none, some 2, some 2⟩ ⟨.inr rfl, .inr rfl, by simp, by simp⟩ rfl (by simp) 0 0 (by rfl) good (pb := 2) (bb := 2) rfl rfl
    lists data_words MphProbExample.data_trie (fun _ => PefEndExample.data_pef) MphProbExample.data_input.quant (by decide) input8.floats codes8 unk8
    (TextExample.built3 (keys := U) rfl (by decide)) MphProbExample.data_hashes []

/-- The same n-grams with counts that tie. -/
def tied : List (List (List (List Byte) × Nat)) :=
  [[([MphCountExample.w 0], 5), ([MphCountExample.w 1], 7), ([MphCountExample.w 2], 6)],
    [([MphCountExample.w 0, MphCountExample.w 1], 3), ([MphCountExample.w 0, MphCountExample.w 2], 2), ([MphCountExample.w 1, MphCountExample.w 2], 4)]]

theorem tied_words : ∀ f ∈ tied, f ≠ [] ∧ ∀ r ∈ f, ∀ w ∈ r.1, Spec.FileWord w := by
  intro f hf
  simp [tied] at hf
  refine ⟨by rcases hf with rfl | rfl <;> simp, fun r hr v hv => ?_⟩
  have : v ∈ [MphCountExample.w 0, MphCountExample.w 1, MphCountExample.w 2] := by
    rcases hf with rfl | rfl <;> simp at hr <;> rcases hr with rfl | rfl | rfl <;> simp at hv ⊢ <;> rcases hv with rfl | rfl <;> simp
  simp at this
  rcases this with rfl | rfl | rfl <;> exact words _ (by decide)

theorem tied_ok : Spec.CountLists 100 tied where
  order_min := by decide
  order_max := by decide
  len := by intro k l h; rcases k with _ | _ | k <;> simp [tied] at h <;> subst h <;> simp
  words := by
    intro f hf r hr v hv
    have : v ∈ [MphCountExample.w 0, MphCountExample.w 1, MphCountExample.w 2] := by
      simp [tied] at hf
      rcases hf with rfl | rfl <;> simp at hr <;> rcases hr with rfl | rfl | rfl <;> simp at hv ⊢ <;> rcases hv with rfl | rfl <;> simp
    simp at this
    rcases this with rfl | rfl | rfl <;> exact ⟨fun b hb => by simp [MphCountExample.w] at hb; subst hb; decide, by simp [MphCountExample.w]⟩
  nonempty := by intro f hf; simp [tied] at hf; rcases hf with rfl | rfl <;> simp
  counts := by intro f hf; simp [tied] at hf; rcases hf with rfl | rfl <;> simp
  memory := by decide

theorem tied_trie : Spec.CountFiles [MphCountExample.w 0, MphCountExample.w 1, MphCountExample.w 2] tied 0 where
  data := by
    refine ⟨by decide, rfl, ?_, ?_, ?_, ?_, ?_, ?_⟩
    · intro k l h; rcases k with _ | _ | k <;> simp [tied] at h <;> subst h <;> simp
    · intro k l h; rcases k with _ | _ | k <;> simp [tied] at h <;> subst h <;> simp
    · intro k l h; rcases k with _ | _ | k <;> simp [tied] at h <;> subst h <;> simp
    · intro k l h; rcases k with _ | _ | k <;> simp [tied] at h <;> subst h <;> decide
    · intro k l l' h h'; rcases k with _ | _ | k <;> simp [tied] at h h'; subst h h'; simp
    · intro h; exact absurd rfl h
  order_min := by decide
  order_max := by decide
  remapping := by decide
  counts := by intro f hf; simp [tied] at hf; rcases hf with rfl | rfl <;> simp
  size := by simp [tied]

theorem tied_hashes : Spec.RangeHashes (fun _ => FastEF.exMphf) tied := by
  intro k f g h h' hn
  rcases k with _ | _ | k <;> simp [tied] at h h'
  subst h h'
  exact absurd (by decide +kernel) hn

theorem tied_ties : ∃ f ∈ tied, ¬ Spec.NoTies (f.map (·.2)) := by unfold Spec.NoTies; decide

/-- With these, what `build_trie` writes depends on the library. -/
example := C70_trie_ties_defect (env MphCountExample.hs (codecOf []) 100) (env_ok _ _ _)
    ⟨⟨"ef_trie", "count", none, none⟩, 2, some (-3), none, none⟩ ⟨.inl rfl, .inl rfl, by simp, by simp⟩ rfl (by simp) (files := tied) (by decide)
    tied_trie (fun h => absurd h (by decide)) tied_words (by simp [tied, Spec.maxLines]) (TextExample.built3 (keys := U) rfl (by decide)) tied_hashes
    tied_ties (folder := tied.map Spec.gramsText) (by rfl) none

/-- So does what `build_hash` writes. -/
example := C70_hash_ties_defect (env MphCountExample.hs (codecOf [(MphCountExample.hs 0).hasher, (MphCountExample.hs 1).hasher, (MphCountExample.hs 2).hasher]) 100)
    exLib_valid ⟨⟨"count", 8⟩, 2, none, none, none⟩ ⟨.inl rfl, .inr rfl⟩ rfl (by simp) (files := tied) (by decide) tied_ok
    (fun f hf => (tied_words f hf).2) (by decide)
    ⟨fun k f hk => by
      have e : tied.map (·.map fun r => joinSp r.1) = MphCountExample.files.map (·.map fun r => joinSp r.1) := rfl
      rw [e, List.getElem?_map] at hk
      obtain ⟨f', h1, rfl⟩ := Option.map_eq_some_iff.1 hk
      exact MphCountExample.hs_built k f' h1, hs_read⟩ tied_ties (folder := tied.map Spec.gramsText) (by rfl) none

/-- A sequence without long ranges. -/
example := C70_uninitialised_defect (c := codec) (f := ⟨ptrs, none, [1, 2]⟩) rfl (ju := junkTable) (ju' := ⟨junkTable.h, cvJunk⟩) junk_fits
    ⟨junk_fits.1, by decide, by decide, by decide⟩ (fun h => absurd (congrArg UTable.values h) (by decide))

end ReproExample

end Tongrams
