# Formal model of ProperImage in Lean 4 — design

Source modelled: `/repo/properimage/{utils,operations,single_image,simtools,plot}.py`
(pinned commit, version 0.7.2). Properties are in `properties.jsonl`; the
property → theorem map is `MANIFEST.json`; the mutation tests are in `seeded/LOG.jsonl`.

## Layout

```
lean/Verif/Base/*     Python and numpy primitives used by the models: exceptions as values (Py),
                      methods that change an object (PyS), slices, indices, int(), round(), binary64
                      rounding, images and masks (Img), floating values (FVal), percentiles (Stats),
                      discrete Fourier transforms (DFT)
lean/Verif/Model/*    one file per modelled part of the code, every definition citing file:lines
lean/Verif/Lemmas/*   helper lemmas about the primitives (Fourier analysis, rounding errors, order
                      statistics, least squares, mask growth, sigma clipping, ...)
lean/Verif/Props/*    the property theorems. Each file starts a property with the small specification
                      it is stated against (for instance `zackayR`, `psfSpec`, `circCorr`,
                      `combinedPsf`), written without the model's helpers, and ends with worked
                      instances that meet the hypotheses
```

## Trusted base

* Lean 4.33.0's kernel. Every theorem depends on at most the axioms `propext`, `Classical.choice` and
  `Quot.sound`; there is no `sorry`, no `native_decide`, no `bv_decide` and no axiom of ours.
  (Checked with `#print axioms` on every theorem named in the manifest.)
* The reading of the Python source: each model definition cites the lines it mirrors;
  nothing was executed. Simplifications are stated in the definition's comment.
* The contracts assumed for libraries (below).

### Conventions

* Python exceptions are values: a function that can raise returns `Py α = Except PyErr α`. A method that
  changes its object is `PyS σ α = σ → Py α × σ`: the changed state is there also when it raises, since
  several properties are about the state an exception leaves behind.
* Images are `Img α` (height, width, pixel function); only in-range pixels are meaningful and
  statements only talk about those.
* Pixel values with NaN/inf are `FVal` (nan, +inf, -inf, or an exact rational). Arithmetic on
  finite values is exact: binary32/64 rounding is *not* modelled, except in `chunk_it`, whose
  behaviour hinges on rounding and where binary64 round-to-nearest-even is modelled.
* Numeric formulas in the Fourier domain are modelled over the reals and complexes. Division by zero
  is Lean's `x / 0 = 0`; statements that depend on such frequencies carry a hypothesis.
* `numpy.ma`'s scalar `nomask` is modelled explicitly, since code and results depend on it.

### Libraries modelled after their documentation and sources

numpy slicing, broadcasting, fancy indexing, `np.ma` masks, `np.percentile`, `np.roll`, `argsort`-based
sorting, `np.fft` with both normalisations, `scipy.ndimage.fourier_shift`, `scipy.ndimage.convolve`
(reflecting edges), `scipy.ndimage.center_of_mass`, `maximum_filter`/`label` by their specification,
`astropy.convolution.interpolate_replace_nans` and the renormalised convolution behind it,
`astropy.stats.sigma_clipped_stats`, astropy's `Gaussian2D` and its `render`, POSIX path names.

### Libraries taken as parameters (oracles) and what is assumed of them

| library call | role in the model | assumption used |
|---|---|---|
| `scipy.spatial.cKDTree.query` | parameter | returns a nearest point at distance < bound, else (inf, N2); ties arbitrary |
| `scipy.sparse.linalg.lsqr` | any solution | a (minimum-norm, where said) minimiser of the least-squares problem |
| `scipy.optimize.least_squares` / `minimize_scalar` | parameter | raises ValueError on an infeasible start or a residual that is not finite, `np.ma.masked` included (least_squares); a returned x respects the bounds |
| `sep.extract`, `sep.Background` | parameter | none (any result or exception); rms a number; in C151 only, the kinds and layouts of arrays it accepts |
| `np.linalg.eigh` | parameter | orthonormal eigenvectors with ascending eigenvalues, only where a statement says so |
| `astroalign.register` | parameter | returns an image of the target's shape |
| `astropy.nddata.extract_array` | parameter | only the values read; concrete where C51 says so |
| `astropy` FITS I/O | file contents as data | getdata/getheader return what the file holds |
| `astropy` fitters, `skimage`, `tinynpydb` | parameter | none, or: load returns what was dumped, and raises FileNotFoundError once the file has been removed; in C188 also that load reads the files at each call and that opening a database for writing empties them |
| the rest of the constructor (background, header) | parameter | none |
| `joblib.Parallel(threading)` | interleaving semantics | runs every task to completion, results in task order |
| `np.random`, `scipy.ndimage.rotate` | parameter | `choice(n, k, replace=False)` gives k distinct indices < n; otherwise none |

Not modelled at all: floating-point rounding outside `chunk_it`, the sums of `coadd` (C164) and the division of an array by its sum (C174), and what is said for any rounding of the operations that lead to D, P, S_corr, R and P_r (C199 to C202), logging, timing, matplotlib drawing
(only grid shapes, dispatch and the data handed over), FITS byte encoding, pyfftw versus numpy FFT
differences, process-global state of `sep` other than the `pixstack` value, tempfile naming.

## What was modelled and how each property is proved

| id | model | how it is proved |
|---|---|---|
| C01–C03 | `Model/Chunk`: the while loop over an abstract number structure; instances: exact rationals and binary64-rounded rationals | loop invariant (prefix covered = `take (int last)`), error bounds for the rounded instance |
| C04, C06–C12, C86 | `Model/Coadd`: accumulation over ℂ-valued images, workers, masks, alignment | sums over partitions, permutation lemmas, algebra over ℂ, Fourier inversion |
| C05 | `Model/Sched`: worker threads as interleavings of the statements of `s_hat_comp` on shared objects | invariants of the attributes and workers over all schedules; the failing schedule is constructed |
| C13–C15 | `Model/Match` | unfolding + nearest-neighbour spec; injectivity from mutuality; Euclidean distances in `Props/MatchGeom` |
| C16–C21, C88 | `Model/Transparency` | invariant over the image list; normal equations and closed form (`Lemmas/Lsq`); witnesses for the refuted parts |
| C22–C29, C78–C80, C87 | `Model/Subtract` | case analysis; complex algebra; DFT at frequency zero; Hermitian symmetry; convolution theorem |
| C89 | `Model/SubtractFront` with `Model/Construct` | case analysis over argument kinds; generic mask growth lemmas |
| C30–C40 | `Model/Construct` (also the border), `Model/MaskGrow` | case analysis over constructor branches; induction over growth iterations |
| C41–C45, C101, C102 | `Model/Sources`, `Model/CoaddFront` | case analysis over the extraction ladder, list lemmas |
| C46–C51, C81–C82, C97 | `Model/Stamps` | loop invariants over candidates |
| C52–C58, C83–C85, C98, C100 | `Model/KL`, `Model/CoaddFront`: covariance, basis, coefficient fields and the lazily cached attributes as a state machine over arbitrary oracles | loop invariant of the cut, quadratic forms, index arithmetic; invariants by induction over operation lists; counterexample histories |
| C59, C60, C99 | `Model/PsfXY`, `Model/Interp` | slice arithmetic; the weight under the kernel (astropy's `convolve_fft` gives 0 where there is none) |
| C61 | `Model/Clean` | file-set state machine |
| C62–C64 | `Model/Plot` | number theory; square-root bounds |
| C65–C74, C103 | `Model/Sim`, `Model/SimImage` | index arithmetic, real analysis for the Sersic profile |
| C75–C77 | `Model/Utils`, `Model/AlignDiff` | connected components; weighted means; string lemmas |
| C90, C91 | `Model/GaussPsf` | real analysis; order statistics and Samuelson's inequality (`Lemmas/SigmaClip`) |
| C92–C96 | `Model/VarPsf` | linearity of the transform; correlation theorem (`Lemmas/Corr`); Cauchy–Schwarz on rolled sums |
| C104–C108 | `Model/Subtract`, `Model/Coadd` | impulse responses, Parseval and orthogonality of the exponentials (`Lemmas/Filter`); shift theorem |
| C109, C110 | `Model/VarPsf` | an independent reflection rule; moments; linearity of the transform |
| C111 | `Model/Subtract` | linearity of the difference in the images; response at frequency zero |
| C112, C113 | `Model/PlotImage` | variance inside and between two groups; median of a majority |
| C114 | `Model/StoreFits`, `Model/Construct` | composition with the construction theorems |
| C115 | `Model/KL`, `Model/Stamps` | the measurement does not look at the remembered transform |
| C116, C117 | `Model/Subtract`, `Model/Coadd` | Parseval (`Lemmas/Parseval`), Cauchy–Schwarz over all weights, injectivity of the transform |
| C118 | `Model/Stamps` | percentile and median commute with increasing affine maps; windows of two frames compared |
| C119 | `Model/Subtract` | score numerator as a linear filter of both images; filters moved by whole pixels; sums of squared kernels |
| C120 | `Model/GaussCoadd` | coadd of images with Gaussian PSFs: filter by the rendered Gaussian, normalisation by the basis; powers per frequency |
| C121 | `Model/Lifecycle` | invariants by induction over operation lists; monotone growth of masks; spreading of a masked bar |
| C122 | `Model/Subtract` | the numerator of the score as a filter; correlation theorem; Cauchy–Schwarz for the autocorrelation |
| C123–C125 | `Model/Subtract` | two calls that see the same cost end alike; transforms of transposed, rolled and scaled images; homogeneity of every kernel |
| C126 | `Model/Coadd` | transforms of transposed, rolled and scaled images; homogeneity of the sums and of the normalised PSF |
| C127, C128 | `Model/Transparency`, `Model/Subtract`, `Model/Coadd` | closed form of the zero points of two catalogues put into the closed forms of the two results |
| C129 | `Model/Transparency`, `Model/Coadd`, `Model/Subtract` | where each right-hand side is written; variance of the zero points |
| C130 | `Model/Construct`, `Model/SubtractFront`, `Model/Coadd`, `Model/Interp` | composition of construction, mask growth, union and interpolation |
| C131 | `Props/PsfStamp` | the star's place in the PSF stamp: D, the fit, the mask and coadd do not see it, P rolls along, the noise maps under S are displaced |
| C132 | `Props/PsfScale` | a factor on the PSFs acts like the same factor on the zero points; a common factor changes P only |
| C133 | `Props/MaximaSymm` | find_S_local_maxima under a change of unit, transposition, embedding, mirroring and an added constant |
| C134 | `Model/AlignCoadd`, `Props/AlignAgain` | align=True on exposures that are aligned already: coadd grows the masks of all but the first image again, subtract forgets the mask of the new image |
| C135 | `Props/TransparencySwap` | zero points of two images as a function of the pairs in common, exchange of the two images in transparency, subtract and coadd; order dependence with three |
| C136 | `Props/SkyScore` | a brighter sky in subtract's D and score (constant in the numerator, variance in the denominator) and in coadd's R |
| C137 | `Props/Repeats` | one object several times in coadd's list: the last zero point counts, gain and sign of the result |
| C138 | `Props/MaskedValues` | pixel values under a mask reach neither the constructor's output nor subtract's; border removal reads them |
| C139 | `Props/KLBest` | the truncated PSF basis is the best approximation of the mean-free stamps (all competing pictures and coefficients); meaning of `inf_loss`; near-optimality for the stamps; a pair of nearly equal stars for which almost everything is lost |
| C140 | `Props/KLOrder` | the PSF model depends neither on the order of the stars nor on the eigenvectors found, if there is a gap at the cut; counterexample without one |
| C141 | `Props/StarLists` | zero points of two images under reordering and moving of the star lists and added stars; order dependence with three images |
| C142 | `Props/MaximaClip` | clipped statistics of `find_S_local_maxima` (three rounds): invariance, bound on the detected fraction, sufficient conditions for detecting stars, a hidden star |
| C143 | `Props/Energy` | power of the difference image and of the coadd together is that of the images in units of the noise; errors are not amplified; the images can be recovered |
| C144 | `Props/Turn` | half a turn of the images turns D, the coadd and the masks and reflects P; the score's noise is reflected about another point |
| C145 | `Props/CoaddNan` (model with nan: `Model/CoaddNan`) | a frequency at which all PSFs vanish makes the whole coadd nan; which PSFs do this and which do not |
| C146 | `Props/AlignDiff` (model: `Model/AlignDiff`) | what `_align_for_diff` writes |
| C147 | `Props/PlotOpts` (model: `Model/PlotOpts`) | dictionaries of options, and what has been drawn when a plot raises |
| C148 | `Props/CoaddPsfScale` | a factor on a PSF acts as a factor on a zero point; one-pixel PSFs give weighted means; the scale of a variable basis divides the coadd |
| C149 | `Model/FitGauss`, `Props/FitGauss` | the start is computed from max/min and compared with a closed form; symmetries of the sum of squares |
| C150 | `Props/ConvSame` | superposition of sources; sums over the image are exchanged for sums over the PSF |
| C151 | `Model/SepInput`, `Props/SepInput` | how the pixels are stored is followed through the setters; sep's checks on arrays are modelled after its source |
| C152 | `Model/Named`, `Props/Named` | the branch is chosen by name, and agrees with `Model/Construct` if there is no confusion of names |
| C153 | `Model/FieldFit`, `Props/FieldFit` | normal equations of the least-squares fit are linear, so fits add up pixel by pixel; dimension count for few stars; polynomials of degree three are closed under affine maps |
| C154 | `Props/Stages` | the transform of the returned PSF image is the square root of the power up to scale and phase, so the terms of a coadd as an image are the sums of the terms of its group |
| C155 | `Props/Peak` | star response at its centre; the amplitudes of the images at a frequency form a vector whose length is the root of the power, so the peak is a sum of lengths (triangle inequality and its equality case, Cauchy-Schwarz) |
| C156 | `Props/Optimal` (`subtract_snr`), `Props/Transient` | Parseval for the matched statistic; per frequency the noises of the two images add up |
| C157 | `Props/DeepRef` | C154 gives the transform of the PSF of a coadd, C156 the ratio; monotone in the power |
| C158 | `Props/SimWidth` | the range of pixels that is filled, exactly; the exponent relative to the middle; bounds on log 2 |
| C159 | `Model/PixelKind`, `Props/PixelKind` | the methods with the kind of number as an argument; equal to those of `Model/KL` for floating point, and where they part |
| C160 | `Model/Gone`, `Props/Gone` | the methods of `Model/KL` with a flag for the files; step by step equal to them as long as no stamp has to be loaded |
| C161 | `Props/PsfXYOwn` | `modelAt`, `unitModelAt`: basis and fields combined at a place of the frame, and divided by the total |
| C162 | `Props/Sky` | `through`: a sky spread by a stamp; linearity of the results in the pixels and the response to one star |
| C163 | `Props/SkyChange` | `through` of C162 and the injectivity of the Fourier transform |
| C164 | `Model/CoaddFloat`, `Props/CoaddFloat` | the loops of `Model/Coadd` with rounded additions; error of running sums by induction, depth of the chunks, exact grids; a cancelling witness |
| C165 | `Props/FitRight` | transform of D for two skies, scale and shift; vanishing iff the fit is right; the costs of C111 at the truth; perfect optimisers; instances with every hypothesis met |
| C166 | `Model/Deprecated`: the two wrappers around an arbitrary function; `warnings.warn` with filters, registry and `stacklevel` | case analysis on the first filter that applies; the warning state of n calls is an iterate |
| C167 | `Model/Deprecated`: `__repr__`, `get_afield_domain` | decimal digits contain no comma and determine the number |
| C168 | `Props/WrongPsf` | transform of what a sky through other PSFs adds to D; injectivity of the transform; coefficient at frequency zero |
| C169 | `Props/CoaddOverlap` | equality case of the bound of C116 determines the weights; Cauchy–Schwarz with its equality case |
| C170 | `Props/TransientPsf` | unitarity of the transform turns the sum over pixels into one over frequencies; complex Cauchy–Schwarz with its equality case; the bound of C117 for an arbitrary star |
| C171 | `Props/WrongNoise` | covariance of a filtered white noise is the transform of the filter power; injectivity of the transform gives the converse; convexity for the bounds; Cauchy–Schwarz for the weights |
| C172 | `Lemmas/Flip`, `Props/Flip`, `Props/FlipCoadd` | the Hermitian part of a fractional shift is reflected with the rows except at the frequency that is highest in both directions; one coefficient gives the checkerboard |
| C173 | `Props/VarFilter`, `Props/VarNoise` | a correlation with a stamp centred on a pixel is a sum over the image with the coefficients read at the data pixel; Lagrange identity for the equality case; Parseval for the response to one count |
| C174 | `Model/SumFloat`, `Props/SumFloat` | orders of additions as binary trees; induction on the tree with factor (1+u)^depth; strong induction on the length for the depth and the exactness of numpy's pairwise order |
| C175 | `Props/VarSymm` | per term: transposition through tr-lemmas; the half turn through reflection of scipy's boundary rule about the centre and the mirror rule of the DFT; rescaling and reordering through the two sums of coadd; witness for even stamps from the coefficient of frequency zero |
| C176 | `Props/StarFound` | mean and deviation of what the clipping keeps, bounded by the sum of squares of all pixels (it keeps at least 27/64); the score of the pair without the star is zero (C25), so C122 gives the score; |P^| = |PSF^| for equal PSFs |
| C177 | `Props/CoaddRef` | the gain of an exposure in D is its gain in the coadd times that of the reference (C104, C105); the transform of the PSF image is the root of the power, so the balance per frequency and Cauchy-Schwarz over the exposures give the bound of C117 |
| C178 | `Props/PsfReturns` | the basis is set up as in C98 with the state written out; the fits are a `mapM` whose first error is the result; a second call reads the cache (C55) and the filter follows line by line |
| C179 | `Props/GaussNoise` (`Lemmas/Gauss`) | D and R are real linear functions of the errors (C104, C105) whose kernels are orthonormal; jointly Gaussian and uncorrelated variables are independent (Mathlib); Parseval for the square sum of the PSF image |
| C180 | `Props/Moved` | the transform of the change is the product of the PSFs over the normalisation, times a difference of two phases (C106, C107); Parseval; `sin x` at most `x`; the law through the weighted sums of C179 |
| C181 | `Lemmas/Neyman`, `Props/Powerful` | the lemma of Neyman and Pearson for product Gaussians (density of a shifted product); a linear statistic that reaches the bound of C156 among those blind to constant stars has as weights the part of the star orthogonal to the constant stars (projection), and a blind test does not see the rest; weights of C169 with a positive factor; continuity of the Gaussian distribution function for the thresholds |
| C182 | `Props/ChainGauss` | D of the two stages is a real linear function of all pixels with an orthonormal kernel (C177); as C179 and C181 |
| C183 | `Lemmas/Sufficient`, `Props/Sufficient` | R is a white linear function of the pixels that keeps all the energy of the sky (Parseval), so the sky over the variances is a combination of its rows and the densities depend on R alone; conditional expectation given R; the skies reach every R (injective, same dimension) |
| C184 | `Props/Invariant` | both PSFs map the skies one to one onto the images (same dimension), so every difference of exposures is a pair of skies and C163 says when D sees it |
| C185 | `Lemmas/Precision`, `Props/Precision` | likelihood ratio of two fluxes, its second moment from the ratio at twice the flux, Cauchy and Schwarz and the limit of equal fluxes; for D along the least favourable unchanging sky |
| C186 | `Model/Repeat`, `Props/Repeat` | the numbers of the master's stars only tell them apart, so a catalogue numbered by an earlier call acts like a fresh one; a permutation of the rows from C141; induction over the calls |
| C187 | `Model/Repeat`, `Props/RepeatCoadd` | as C186 for any number of images, the fluxes found by number in lists of any order; the same summed matched filter over two normalisations (C09) |
| C188 | `Model/Store`, `Props/Store` | non-interference: the world of all images and the world of one image side by side; the decimal names of different addresses differ |
| C189 | `Lemmas/Fit`, `Props/Fit` | the exposures split into the part the linear map K of coadd or subtract sees and the part it does not, orthogonal in the noise metric because K times its transpose is white (C171, C181); the lowest of parabolas of the same width |
| C190 | `Props/ScoreLaw` | C119 as the variance of a linear function of independent Gaussian errors; expectation of a count as a sum of probabilities; sums over all residues for flat exposures |
| C191 | `Props/PhotError` | C17 for both pairs of catalogues: matching looks at positions only, so the closed forms differ by the sums of the gains of the matched stars |
| C192 | `Props/MeanPsf` | Perron for the Gram matrix of the treated stamps: the absolute values of the top eigenvector do at least as well, so all its products are non-negative; C139 for the number of elements, C178 for the call |
| C193 | `Props/BadPixels` | D and R as white linear functions of the errors (C179): the seen part of the errors (C189) is no larger than the errors, and reaches every result |
| C194 | `Props/SamePsf` | with one PSF the gains of C104 and C105 are a constant times the phase of the PSF; a filter is idle exactly if all its gains are one (injective transform), and of modulus one it keeps the power |
| C195 | `Props/Sharpness` | the transform of the returned PSFs (`stage_psfHat`, `pHat`) squared, and Parseval; harmonic against arithmetic mean for the bound and its equality case |
| C196 | `Props/Epochs` | D as a linear function of all exposures (`gainEpochs`): the optimality of `subtract` (C156) carried over through the coadds (`Epoch.star`), and Cauchy–Schwarz at each frequency for both seasons |
| C197 | `Props/Edge` | what an exposure shows is the periodic sky (C162) less the wrapped light (`cut_add_wrapped`), and D is linear and does not amplify (C193); a sky that only the new exposure misses is never lost since its gain vanishes nowhere |
| C198 | `Props/LightCurve` | difference images with a common reference: covariance of their pixels, the noise that stays in their mean, and drops out of their differences |
| C199 | `Model/SubtractBits`, `Props/Bits` | the operations that lead to D over any arithmetic (`PixArith`), tied to the exact model by `bits_exact`; laws (`Sound`, `Doubling`) proved for exact numbers and for rounding after every operation (`roundPix`), with rounding to any number of binary digits (`digits`; `nearestEven` for IEEE 754) as the instance |
| C200 | `Model/CoaddBits`, `Props/CoaddBits` | the operations that lead to R and P_r over any arithmetic (`CoArith`), as C199; a change of all images that doubles S and quadruples P changes nothing (`coadd_dbl`); binary64 of C164 is an instance (`rnd64_digits`) |
| C201 | `Model/ScoreBits`, `Props/ScoreBits` | the operations that lead to P and S_corr over any arithmetic (`ScArith`), as C199; exchanging the images exchanges the kernels `kr` and `kn` |
| C202 | `Model/VarBits`, `Props/VarBits` | C200 for images with coefficient fields (`VaArith`); the normalisation image cancels a factor of the PSFs in S but not in P |

None of the listed properties is considered inexpressible; those that the code violates are kept in
`properties.jsonl` in the form that says where they hold and where they fail, with the failure proved
on a concrete witness. Where a property would hold only with an assumption about an oracle, the
assumption is a hypothesis of the theorem and is named in the manifest's note.

## Mutation tests

`seeded/LOG.jsonl` has one line per edited model: the definition, the edit, the claim it makes false,
the theorems that no longer prove, and the theorems that were tightened because the edit had survived.
Each edit was made in a scratch copy; a theorem that failed was replaced by `sorry` in that copy, so that
the theorems built on it were still checked. Edits that survive because they do not change the
function are recorded as equivalent.
