import Verif.Model.Precon

/-!
# Additive Schwarz preconditioner, src/precon/lis_precon_ads.c

`ps` is the preconditioner chosen by `-p` (`lis_psolve_xxx[ptype]`, for `lis_psolveh_adds` `lis_psolveh_xxx[ptype]`), `mv`
is `lis_matvec(precon->A,·,·)` (`lis_matvech`).  `b`, `x` are the arguments `B`, `X`; `w`, `r` the work vectors of the
preconditioner.  Double precision.
-/

namespace Lis
variable {R : Type}

/-- `if(k!=iter) { lis_matvec(precon->A,X,R); for(i=0;i<n;i++) r[i] = b[i] - r[i]; }`.
src/precon/lis_precon_ads.c:159-169, 263-273 -/
def addsResid [Sub R] (mv : ℕ → ℕ → Vecs R → Option (Vecs R)) (iter n b x r k : ℕ) (h : Vecs R) : Option (Vecs R) :=
  if k ≠ iter then do
    let h ← mv x r h
    loop 0 n h fun i h => do
      let u ← vrd h b i
      let v ← vrd h r i
      vwr h r i (u - v)
  else some h

/-- `lis_psolve_adds`, `lis_psolveh_adds`: `iter` is the option `-adds_iter`; `np = n` in the serial build.
src/precon/lis_precon_ads.c:117-171, 219-274 -/
def psolveAdds [Zero R] [Add R] [Sub R] (mv ps : ℕ → ℕ → Vecs R → Option (Vecs R)) (iter n np b x w r : ℕ) (h : Vecs R) :
    Option (Vecs R) := do
  let h ← (vectorSetAll 0 x h).map Prod.snd
  let h ← (vectorCopy b r h).map Prod.snd
  loop 0 (iter + 1) h fun k h => do
    let h ← loop n np h fun i h => vwr h r i 0
    let h ← ps r w h
    let h ← loop 0 n h fun i h => do
      let u ← vrd h x i
      let v ← vrd h w i
      vwr h x i (u + v)
    addsResid mv iter n b x r k h

/-- the call from a solver: `B`, `X` are objects `b`, `x` of the solver, the work vectors `wr` belong to the
preconditioner (`precon->work[0..1]`, src/precon/lis_precon_ads.c:66-104) and hold whatever earlier calls left there. -/
def psolveAddsCall [Zero R] [Add R] [Sub R] (mv ps : ℕ → ℕ → Vecs R → Option (Vecs R)) (iter n : ℕ) (wr : Vecs R) (b x : ℕ)
    (h : Vecs R) : Option (Vecs R) := do
  let g ← psolveAdds mv ps iter n n 0 1 2 3 fun v => if v = 0 then h b else if v = 1 then h x else wr v
  pure fun v => if v = x then g 1 else h v

end Lis
