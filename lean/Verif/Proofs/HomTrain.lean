import Verif.Proofs.Hom

/-!
# Maps between scalars: optimisers, bases and approximators
-/

set_option linter.unusedSectionVars false

namespace Lfa

/-- The products after one more call of `Adam`. -/
def adamBump {K : Type} [Scalar K] (o : Adam K) : Adam K :=
  { o with beta1Prod := o.beta1Prod *. o.beta1, beta2Prod := o.beta2Prod *. o.beta2 }

/-- The product after one more call of `AdaMax`. -/
def adamaxBump {K : Type} [Scalar K] (o : AdaMax K) : AdaMax K :=
  { o with beta1Prod := o.beta1Prod *. o.beta1 }

theorem adam_step {K : Type} [Scalar K] (o : Adam K) (w : List K) (φ : Features K) (s : K) :
    Optimiser.stepScaled o w φ s = ((adamBump o).loop w φ s).map fun r =>
      ((Except.ok () : Result Unit), { adamBump o with expAvg := r.1, expAvgSq := r.2.1 }, r.2.2) := by
  show ((adamBump o).loop w φ s >>= _) = _
  cases (adamBump o).loop w φ s <;> rfl

theorem adamax_step {K : Type} [Scalar K] (o : AdaMax K) (w : List K) (φ : Features K) (s : K) :
    Optimiser.stepScaled o w φ s = ((adamaxBump o).loop w φ s).map fun r =>
      ((Except.ok () : Result Unit), { adamaxBump o with expAvg := r.1, expInf := r.2.1 }, r.2.2) := by
  show ((adamaxBump o).loop w φ s >>= _) = _
  cases (adamaxBump o).loop w φ s <;> rfl

/-- What `h` does to the result of a step. -/
def stepMap {O O' K K' : Type} (h : K → K') (ho : O → O') (r : StepOut O K) : StepOut O' K' :=
  (r.1, ho r.2.1, r.2.2.map h)

/-- `ho` carries an optimiser from one arithmetic to the other. -/
structure OptHom {O O' K K' : Type} [Scalar K] [Scalar K'] [Optimiser O K] [Optimiser O' K']
    (h : K → K') (ho : O → O') : Prop where
  stepScaled : ∀ (o : O) (w : List K) (φ : Features K) (s : K),
    Optimiser.stepScaled (ho o) (w.map h) (φ.hmap h) (h s) =
      (Optimiser.stepScaled o w φ s).map (stepMap h ho)
  step : ∀ (o : O) (w : List K) (φ : Features K),
    Optimiser.step (ho o) (w.map h) (φ.hmap h) = (Optimiser.step o w φ).map (stepMap h ho)
  reset : ∀ o : O, Optimiser.reset (K := K') (ho o) = ho (Optimiser.reset (K := K) o)

namespace ScalarHom

variable {K K' : Type} [ScalarInf K] [ScalarInf K'] {h : K → K'} {D : K → Prop}

section
variable (H : ScalarHom h D)
include H

theorem zeros (l : List K) :
    (l.map h).map (fun _ => (Scalar.zero : K')) = (l.map fun _ => (Scalar.zero : K)).map h := by
  rw [List.map_map, List.map_map]
  refine List.map_congr_left fun a _ => ?_
  exact H.zero.symm

/-! ## Optimisers -/

theorem sgd : OptHom (O := SGD K) (O' := SGD K') h (fun o => ⟨h o.lr⟩) where
  stepScaled o w φ s := by
    show ((φ.hmap h).scaledAddto (h o.lr *. h s) (w.map h) >>= _) =
      Except.map _ (φ.scaledAddto (o.lr *. s) w >>= _)
    rw [← H.mul, H.scaledAddto, Except.bind_map', Except.map_bind']
    rfl
  step o w φ := by
    show ((φ.hmap h).scaledAddto (h o.lr) (w.map h) >>= _) =
      Except.map _ (φ.scaledAddto o.lr w >>= _)
    rw [H.scaledAddto, Except.bind_map', Except.map_bind']
    rfl
  reset o := rfl

theorem computeLr (o : ISGD K) (φ : Features K) :
    (ISGD.mk (h o.lr)).computeLr (φ.hmap h) = h (o.computeLr φ) := by
  unfold ISGD.computeLr
  show h o.lr /. (Scalar.ofNat 1 +. h o.lr *. (φ.hmap h).fold Scalar.zero _) = h (_ /. _)
  rw [H.div _ _ (H.d_add_left _ _ (H.d_ofNat 1)), H.add, H.ofNat, H.mul, ← H.zero,
    H.fold (f := fun acc x => acc +. x *. x) (fun a b => by rw [H.add, H.mul])]

theorem isgd : OptHom (O := ISGD K) (O' := ISGD K') h (fun o => ⟨h o.lr⟩) where
  stepScaled o w φ s := by
    show ((φ.hmap h).scaledAddto ((ISGD.mk (h o.lr)).computeLr (φ.hmap h) *. h s) (w.map h) >>= _) =
      Except.map _ (φ.scaledAddto (o.computeLr φ *. s) w >>= _)
    rw [H.computeLr, ← H.mul, H.scaledAddto, Except.bind_map', Except.map_bind']
    rfl
  step o w φ := by
    show ((φ.hmap h).scaledAddto ((ISGD.mk (h o.lr)).computeLr (φ.hmap h)) (w.map h) >>= _) =
      Except.map _ (φ.scaledAddto (o.computeLr φ) w >>= _)
    rw [H.computeLr, H.scaledAddto, Except.bind_map', Except.map_bind']
    rfl
  reset o := rfl

theorem velocityUpdate (m : K) (v : List K) (φ : Features K) (s : K) :
    velocityUpdate (h m) (v.map h) (φ.hmap h) (h s) = (velocityUpdate m v φ s).map (List.map h) := by
  cases φ with
  | dense da =>
    have e : ∀ x y, h (m *. x +. y *. s) = h m *. h x +. h y *. h s := fun x y => by
      rw [H.add, H.mul, H.mul]
    exact zipMutWith_map h h (u := fun x y => m *. x +. y *. s) (u' := fun x y => h m *. x +. y *. h s) e v da
  | sparse sa =>
    have e : ∀ x a, h (x +. a *. s) = h x +. h a *. h s := fun x y => by rw [H.add, H.mul]
    have e2 : (v.map h).map (· *. h m) = (v.map (· *. m)).map h := by
      rw [List.map_map, List.map_map]
      exact List.map_congr_left fun a _ => (H.mul a m).symm
    show Features.scatterMod (fun x a => x +. a *. h s) (HMap.vmap h sa.activations)
      ((v.map h).map (· *. h m)) = _
    rw [e2]
    exact H.scatterMod (g := fun x a => x +. a *. s) (g' := fun x a => x +. a *. h s) e _ _

theorem scaledAdd (w : List K) (a : K) (v : List K) :
    scaledAdd (w.map h) (h a) (v.map h) = (scaledAdd w a v).map (List.map h) := by
  have e : ∀ x y, h (x +. a *. y) = h x +. h a *. h y := fun x y => by rw [H.add, H.mul]
  exact zipMutWith_map h h (u := fun w x => w +. a *. x) (u' := fun w x => w +. h a *. x) e w v

theorem momentum : OptHom (O := SGDMomentum K) (O' := SGDMomentum K') h
    (fun o => ⟨h o.momentum, h o.learningRate, o.velocity.map h⟩) := by
  have key : ∀ (o : SGDMomentum K) (w : List K) (φ : Features K) (s : K),
      Optimiser.stepScaled (SGDMomentum.mk (h o.momentum) (h o.learningRate) (o.velocity.map h))
        (w.map h) (φ.hmap h) (h s) =
      (Optimiser.stepScaled o w φ s).map (stepMap h
        fun o => (⟨h o.momentum, h o.learningRate, o.velocity.map h⟩ : SGDMomentum K')) := by
    intro o w φ s
    show (Lfa.velocityUpdate (h o.momentum) (o.velocity.map h) (φ.hmap h) (h s) >>= fun v =>
      Lfa.scaledAdd (w.map h) (h o.learningRate) v >>= _) =
      Except.map _ (Lfa.velocityUpdate o.momentum o.velocity φ s >>= fun v =>
        Lfa.scaledAdd w o.learningRate v >>= _)
    rw [H.velocityUpdate, Except.bind_map', Except.map_bind']
    congr 1
    funext v
    rw [H.scaledAdd, Except.bind_map', Except.map_bind']
    rfl
  refine ⟨key, fun o w φ => ?_, fun o => ?_⟩
  · have := key o w φ Scalar.one
    rw [H.one] at this
    exact this
  · show SGDMomentum.mk _ _ _ = SGDMomentum.mk _ _ _
    rw [H.zeros]
    rfl

theorem nag : OptHom (O := NAG K) (O' := NAG K') h
    (fun o => ⟨h o.momentum, h o.learningRate, o.velocity.map h⟩) := by
  have key : ∀ (o : NAG K) (w : List K) (φ : Features K) (s : K),
      Optimiser.stepScaled (NAG.mk (h o.momentum) (h o.learningRate) (o.velocity.map h))
        (w.map h) (φ.hmap h) (h s) =
      (Optimiser.stepScaled o w φ s).map (stepMap h
        fun o => (⟨h o.momentum, h o.learningRate, o.velocity.map h⟩ : NAG K')) := by
    intro o w φ s
    show (Lfa.velocityUpdate (h o.momentum) (o.velocity.map h) (φ.hmap h) (h s) >>= fun v =>
      Lfa.scaledAdd (w.map h) (h o.learningRate) v >>= fun w =>
        (φ.hmap h).scaledAddto (h o.momentum) w >>= _) =
      Except.map _ (Lfa.velocityUpdate o.momentum o.velocity φ s >>= fun v =>
        Lfa.scaledAdd w o.learningRate v >>= fun w => φ.scaledAddto o.momentum w >>= _)
    rw [H.velocityUpdate, Except.bind_map', Except.map_bind']
    congr 1
    funext v
    rw [H.scaledAdd, Except.bind_map', Except.map_bind']
    congr 1
    funext w
    rw [H.scaledAddto, Except.bind_map', Except.map_bind']
    rfl
  refine ⟨key, fun o w φ => ?_, fun o => ?_⟩
  · have := key o w φ Scalar.one
    rw [H.one] at this
    exact this
  · show NAG.mk _ _ _ = NAG.mk _ _ _
    rw [H.zeros]
    rfl

theorem eps : h EPS = EPS := H.sci 1 7
theorem d_eps : D EPS := H.d_sci 1 7

theorem adagrad_denseLoop (lr s : K) : ∀ as ws sss : List K,
    Adagrad.denseLoop (h lr) (h s) (as.map h) (ws.map h) (sss.map h) =
      Prod.map (List.map h) (List.map h) (Adagrad.denseLoop lr s as ws sss)
  | a :: as, w :: ws, ss :: sss => by
    have ih := adagrad_denseLoop lr s as ws sss
    simp only [List.map_cons, Adagrad.denseLoop, ih, Prod.map]
    rw [H.add w, H.div _ _ (H.d_add_right _ _ H.d_eps), H.mul, H.mul, H.add (Scalar.sqrt _), H.eps,
      H.sqrt, H.add, H.powi, H.mul]
  | [], ws, sss => by cases ws <;> cases sss <;> rfl
  | a :: as, [], sss => by cases sss <;> rfl
  | a :: as, w :: ws, [] => rfl

theorem adagrad_sparseBody (lr s : K) (m : HMap K) (st : List K × List K) (i : Nat) :
    Adagrad.sparseBody (h lr) (h s) (HMap.vmap h m) (Prod.map (List.map h) (List.map h) st) i =
      (Adagrad.sparseBody lr s m st i).map (Prod.map (List.map h) (List.map h)) := by
  obtain ⟨accs, w⟩ := st
  have hg : (HMap.get? (HMap.vmap h m) i).getD Scalar.zero *. h s =
      h ((HMap.get? m i).getD Scalar.zero *. s) := by
    rw [HMap.get?_vmap, H.mul]
    cases HMap.get? m i with
    | none => show Scalar.zero *. _ = h Scalar.zero *. _; rw [H.zero]
    | some v => rfl
  unfold Adagrad.sparseBody
  simp only [Prod.map]
  rw [hg]
  generalize (HMap.get? m i).getD Scalar.zero *. s = g
  rw [idx_map, Except.bind_map', Except.map_bind']
  congr 1
  funext ss
  rw [← H.powi, ← H.add, setIdx_map, Except.bind_map', Except.map_bind']
  congr 1
  funext accs
  have e : ∀ x, h (x +. lr *. g /. (Scalar.sqrt (ss +. Scalar.powi g 2) +. EPS)) =
      h x +. h lr *. h g /. (Scalar.sqrt (h (ss +. Scalar.powi g 2)) +. EPS) := fun x => by
    rw [H.add, H.div _ _ (H.d_add_right _ _ H.d_eps), H.mul, H.add (Scalar.sqrt _), H.eps, H.sqrt]
  rw [modIdx_map h e, Except.bind_map', Except.map_bind']
  rfl

theorem adagrad : OptHom (O := Adagrad K) (O' := Adagrad K') h
    (fun o => ⟨h o.learningRate, o.accumulator.map h⟩) := by
  have loop : ∀ (o : Adagrad K) (w : List K) (φ : Features K) (s : K),
      (Adagrad.mk (h o.learningRate) (o.accumulator.map h)).loop (w.map h) (φ.hmap h) (h s) =
      (o.loop w φ s).map (Prod.map (List.map h) (List.map h)) := by
    intro o w φ s
    cases φ with
    | dense da =>
      show Except.ok _ = Except.ok _
      rw [H.adagrad_denseLoop]
    | sparse sa =>
      show (List.range (o.accumulator.map h).length).foldlM _ _ = _
      rw [List.length_map, ← List.map_id (List.range o.accumulator.length)]
      have := foldlM_map' (Prod.map (List.map h) (List.map h)) (id : Nat → Nat)
        (fun st i => H.adagrad_sparseBody o.learningRate s sa.activations st i)
        (List.range o.accumulator.length) (o.accumulator, w)
      rw [List.map_id] at this ⊢
      exact this
  have key : ∀ (o : Adagrad K) (w : List K) (φ : Features K) (s : K),
      Optimiser.stepScaled (Adagrad.mk (h o.learningRate) (o.accumulator.map h))
        (w.map h) (φ.hmap h) (h s) =
      (Optimiser.stepScaled o w φ s).map (stepMap h
        fun o => (⟨h o.learningRate, o.accumulator.map h⟩ : Adagrad K')) := by
    intro o w φ s
    show ((Adagrad.mk (h o.learningRate) (o.accumulator.map h)).loop (w.map h) (φ.hmap h) (h s) >>= _) =
      Except.map _ (o.loop w φ s >>= _)
    rw [loop, Except.bind_map', Except.map_bind']
    rfl
  refine ⟨key, fun o w φ => ?_, fun o => ?_⟩
  · have := key o w φ Scalar.one
    rw [H.one] at this
    exact this
  · show Adagrad.mk _ _ = Adagrad.mk _ _
    rw [H.zeros]
    rfl

/-- The image of the three lists of the Adam loops. -/
def tri (h : K → K') (st : List K × List K × List K) : List K' × List K' × List K' :=
  (st.1.map h, st.2.1.map h, st.2.2.map h)

/-- The image of `Adam`. -/
def adamMap (h : K → K') (o : Adam K) : Adam K' :=
  ⟨h o.beta1, h o.beta1Prod, h o.beta2, h o.beta2Prod, h o.learningRate, o.expAvg.map h,
    o.expAvgSq.map h⟩

/-- The image of `AdaMax`. -/
def adamaxMap (h : K → K') (o : AdaMax K) : AdaMax K' :=
  ⟨h o.beta1, h o.beta1Prod, h o.beta2, h o.learningRate, o.expAvg.map h, o.expInf.map h⟩

theorem adam_body (o : Adam K) (decay : Bool) (s : K) (st : List K × List K × List K)
    (e : Nat × K) :
    (adamMap h o).body decay (h s) (tri h st) (e.1, h e.2) = (o.body decay s st e).map (tri h) := by
  obtain ⟨m1, m2, w⟩ := st
  obtain ⟨i, a⟩ := e
  unfold Adam.body
  simp only [tri, adamMap]
  rw [idx_map, Except.bind_map', Except.map_bind']
  congr 1
  funext m1i
  rw [idx_map, Except.bind_map', Except.map_bind']
  congr 1
  funext m2i
  have e1 : (if decay = true then h o.beta1 *. h m1i else h m1i) +.
      (Scalar.ofNat 1 -. h o.beta1) *. (h a *. h s) =
      h ((if decay = true then o.beta1 *. m1i else m1i) +. (Scalar.ofNat 1 -. o.beta1) *. (a *. s)) := by
    rw [H.add, H.mul, H.sub, H.ofNat, H.mul a]
    split_ifs <;> simp only [H.mul]
  have e2 : (if decay = true then h o.beta2 *. h m2i else h m2i) +.
      (Scalar.ofNat 1 -. h o.beta2) *. (h a *. h s) *. (h a *. h s) =
      h ((if decay = true then o.beta2 *. m2i else m2i) +.
        (Scalar.ofNat 1 -. o.beta2) *. (a *. s) *. (a *. s)) := by
    rw [H.add, H.mul, H.mul, H.sub, H.ofNat, H.mul a]
    split_ifs <;> simp only [H.mul]
  rw [e1, e2]
  generalize (if decay = true then o.beta1 *. m1i else m1i) +. (Scalar.ofNat 1 -. o.beta1) *. (a *. s) = n1
  generalize (if decay = true then o.beta2 *. m2i else m2i) +.
        (Scalar.ofNat 1 -. o.beta2) *. (a *. s) *. (a *. s) = n2
  rw [setIdx_map, Except.bind_map', Except.map_bind']
  congr 1
  funext m1
  rw [setIdx_map, Except.bind_map', Except.map_bind']
  congr 1
  funext m2
  have e3 : ∀ x, h (x +. o.learningRate *. (n1 /. (Scalar.ofNat 1 -. o.beta1Prod)) /.
        (Scalar.sqrt (n2 /. (Scalar.ofNat 1 -. o.beta2Prod)) +. EPS)) =
      h x +. h o.learningRate *. (h n1 /. (Scalar.ofNat 1 -. h o.beta1Prod)) /.
        (Scalar.sqrt (h n2 /. (Scalar.ofNat 1 -. h o.beta2Prod)) +. EPS) := fun x => by
    rw [H.add, H.div _ _ (H.d_add_right _ _ H.d_eps), H.mul,
      H.div n1 _ (H.d_sub _ _ (H.d_ofNat 1)), H.sub, H.ofNat, H.add (Scalar.sqrt _), H.eps, H.sqrt,
      H.div n2 _ (H.d_sub _ _ (H.d_ofNat 1)), H.sub, H.ofNat]
  rw [modIdx_map h e3, Except.bind_map', Except.map_bind']
  rfl

theorem indexedIter (xs : List K) :
    indexedIter (xs.map h) = (indexedIter xs).map fun e => (e.1, h e.2) := by
  unfold Lfa.indexedIter
  rw [List.zipIdx_map, List.map_map, List.map_map]
  rfl

theorem decayed (l : List K) (b : K) :
    (l.map h).map (· *. h b) = (l.map (· *. b)).map h := by
  rw [List.map_map, List.map_map]
  exact List.map_congr_left fun a _ => (H.mul a b).symm

theorem adam : OptHom (O := Adam K) (O' := Adam K') h (adamMap h) := by
  have loop : ∀ (o : Adam K) (w : List K) (φ : Features K) (s : K),
      (adamMap h o).loop (w.map h) (φ.hmap h) (h s) = (o.loop w φ s).map (tri h) := by
    intro o w φ s
    cases φ with
    | dense da =>
      show (Lfa.indexedIter (da.map h)).foldlM ((adamMap h o).body true (h s)) (tri h (o.expAvg, o.expAvgSq, w)) = _
      rw [H.indexedIter]
      exact foldlM_map' (tri h) (fun e : Nat × K => (e.1, h e.2)) (fun st e => H.adam_body o true s st e)
        (Lfa.indexedIter da) (o.expAvg, o.expAvgSq, w)
    | sparse sa =>
      show (HMap.vmap h sa.activations).foldlM ((adamMap h o).body false (h s))
        ((o.expAvg.map h).map (· *. h o.beta1), (o.expAvgSq.map h).map (· *. h o.beta2), w.map h) = _
      rw [H.decayed, H.decayed]
      exact foldlM_map' (tri h) (fun e : Nat × K => (e.1, h e.2)) (fun st e => H.adam_body o false s st e)
        sa.activations (_, _, w)
  have key : ∀ (o : Adam K) (w : List K) (φ : Features K) (s : K),
      Optimiser.stepScaled (adamMap h o) (w.map h) (φ.hmap h) (h s) =
      (Optimiser.stepScaled o w φ s).map (stepMap h (adamMap h)) := by
    intro o w φ s
    have e1 : (⟨h o.beta1, h o.beta1Prod *. h o.beta1, h o.beta2, h o.beta2Prod *. h o.beta2,
        h o.learningRate, o.expAvg.map h, o.expAvgSq.map h⟩ : Adam K') =
        adamMap h { o with beta1Prod := o.beta1Prod *. o.beta1
                           beta2Prod := o.beta2Prod *. o.beta2 } := by
      unfold adamMap
      rw [H.mul, H.mul]
    rw [adam_step, adam_step, show adamBump (adamMap h o) = adamMap h (adamBump o) from e1, loop]
    cases (adamBump o).loop w φ s <;> rfl
  refine ⟨key, fun o w φ => ?_, fun o => ?_⟩
  · have := key o w φ Scalar.one
    rw [H.one] at this
    exact this
  · show Adam.mk _ _ _ _ _ ((o.expAvg.map h).map _) ((o.expAvgSq.map h).map _) = Adam.mk _ _ _ _ _ _ _
    rw [H.zeros, H.zeros]
    rfl

theorem adamax_body (o : AdaMax K) (decay : Bool) (s : K) (st : List K × List K × List K)
    (e : Nat × K) :
    (adamaxMap h o).body decay (h s) (tri h st) (e.1, h e.2) = (o.body decay s st e).map (tri h) := by
  obtain ⟨m, u, w⟩ := st
  obtain ⟨i, a⟩ := e
  unfold AdaMax.body
  simp only [tri, adamaxMap]
  rw [idx_map, Except.bind_map', Except.map_bind']
  congr 1
  funext mi
  rw [idx_map, Except.bind_map', Except.map_bind']
  congr 1
  funext ui
  have e1 : (if decay = true then h o.beta1 *. h mi else h mi) +.
      (Scalar.ofNat 1 -. h o.beta1) *. (h a *. h s) =
      h ((if decay = true then o.beta1 *. mi else mi) +. (Scalar.ofNat 1 -. o.beta1) *. (a *. s)) := by
    rw [H.add, H.mul, H.sub, H.ofNat, H.mul a]
    split_ifs <;> simp only [H.mul]
  have e2 : Scalar.max (if decay = true then h o.beta2 *. h ui else h ui) (Scalar.abs (h a *. h s)) =
      h (Scalar.max (if decay = true then o.beta2 *. ui else ui) (Scalar.abs (a *. s))) := by
    rw [H.max, H.abs, H.mul a]
    split_ifs <;> simp only [H.mul]
  rw [e1, e2]
  generalize (if decay = true then o.beta1 *. mi else mi) +. (Scalar.ofNat 1 -. o.beta1) *. (a *. s) = n1
  generalize Scalar.max (if decay = true then o.beta2 *. ui else ui) (Scalar.abs (a *. s)) = n2
  rw [setIdx_map, Except.bind_map', Except.map_bind']
  congr 1
  funext m
  rw [setIdx_map, Except.bind_map', Except.map_bind']
  congr 1
  funext u
  have e3 : ∀ x, h (x +. o.learningRate *. (n1 /. (Scalar.ofNat 1 -. o.beta1Prod)) /. (n2 +. EPS)) =
      h x +. h o.learningRate *. (h n1 /. (Scalar.ofNat 1 -. h o.beta1Prod)) /. (h n2 +. EPS) :=
    fun x => by
      rw [H.add, H.div _ _ (H.d_add_right _ _ H.d_eps), H.mul,
        H.div n1 _ (H.d_sub _ _ (H.d_ofNat 1)), H.sub, H.ofNat, H.add n2, H.eps]
  rw [modIdx_map h e3, Except.bind_map', Except.map_bind']
  rfl

theorem adamax : OptHom (O := AdaMax K) (O' := AdaMax K') h (adamaxMap h) := by
  have loop : ∀ (o : AdaMax K) (w : List K) (φ : Features K) (s : K),
      (adamaxMap h o).loop (w.map h) (φ.hmap h) (h s) = (o.loop w φ s).map (tri h) := by
    intro o w φ s
    cases φ with
    | dense da =>
      show (Lfa.indexedIter (da.map h)).foldlM ((adamaxMap h o).body true (h s)) (tri h (o.expAvg, o.expInf, w)) = _
      rw [H.indexedIter]
      exact foldlM_map' (tri h) (fun e : Nat × K => (e.1, h e.2)) (fun st e => H.adamax_body o true s st e)
        (Lfa.indexedIter da) (o.expAvg, o.expInf, w)
    | sparse sa =>
      show (HMap.vmap h sa.activations).foldlM ((adamaxMap h o).body false (h s))
        ((o.expAvg.map h).map (· *. h o.beta1), (o.expInf.map h).map (· *. h o.beta2), w.map h) = _
      rw [H.decayed, H.decayed]
      exact foldlM_map' (tri h) (fun e : Nat × K => (e.1, h e.2)) (fun st e => H.adamax_body o false s st e)
        sa.activations (_, _, w)
  have key : ∀ (o : AdaMax K) (w : List K) (φ : Features K) (s : K),
      Optimiser.stepScaled (adamaxMap h o) (w.map h) (φ.hmap h) (h s) =
      (Optimiser.stepScaled o w φ s).map (stepMap h (adamaxMap h)) := by
    intro o w φ s
    have e1 : (⟨h o.beta1, h o.beta1Prod *. h o.beta1, h o.beta2,
        h o.learningRate, o.expAvg.map h, o.expInf.map h⟩ : AdaMax K') =
        adamaxMap h { o with beta1Prod := o.beta1Prod *. o.beta1 } := by
      unfold adamaxMap
      rw [H.mul]
    rw [adamax_step, adamax_step, show adamaxBump (adamaxMap h o) = adamaxMap h (adamaxBump o) from e1, loop]
    cases (adamaxBump o).loop w φ s <;> rfl
  refine ⟨key, fun o w φ => ?_, fun o => ?_⟩
  · have := key o w φ Scalar.one
    rw [H.one] at this
    exact this
  · show AdaMax.mk _ _ _ _ ((o.expAvg.map h).map _) ((o.expInf.map h).map _) = AdaMax.mk _ _ _ _ _ _
    rw [H.zeros, H.zeros]
    rfl

end

end ScalarHom

end Lfa
