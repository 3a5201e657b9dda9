{"id": "C01", "title": "chunk_it loses and duplicates nothing", "statement": "utils.chunk_it(seq, num) returns a list of slices of seq such that, before the final ordering step, concatenating them gives back seq exactly; the returned list is a permutation of those slices, so every element of seq occurs exactly once. This holds with the binary64 rounding the code actually performs, not only in exact arithmetic.", "quantifier": "every sequence, every num >= 1 for which the loop ends, every way the float additions round", "why_tests_cant": "the test tries 20 values of num on one 20-element array; rounding drift depends on the exact pair (len, num)", "anchors": ["properimage/utils.py:chunk_it"]}
{"id": "C02", "title": "chunk_it makes num balanced chunks, or num+1 when rounding falls short", "statement": "For a non-empty sequence, in exact arithmetic chunk_it(seq, num) gives exactly num chunks whose sizes differ by at most one (the empty sequence gives no chunk; num = 0 raises ZeroDivisionError). With binary64 arithmetic, for 1 <= num <= 2^25, it terminates and gives num or num+1 chunks (num+1 really happens: length 1, num 10).", "quantifier": "every length and every num in the stated range", "why_tests_cant": "the number of chunks depends on accumulated rounding over num additions, which only a bound for all lengths settles", "anchors": ["properimage/utils.py:chunk_it"]}
{"id": "C03", "title": "chunk_it gives an empty chunk exactly when there are fewer elements than chunks", "statement": "For a non-empty sequence and num >= 1, chunk_it(seq, num) contains an empty chunk if and only if len(seq) < num (binary64 arithmetic, num <= 2^25, num*len <= 2^50).", "quantifier": "every length and chunk count in the range", "why_tests_cant": "coadd's workers index chunk[0], so one empty chunk for one (length, num) pair crashes the run", "anchors": ["properimage/utils.py:chunk_it", "properimage/operations.py:process_chunk_joblib"]}
{"id": "C04", "title": "coadd's parallel path equals its sequential path", "statement": "For images of one shape and 2 <= n_procs <= number of images, coadd with n_procs workers returns the same R and P_r as with n_procs=1 (real arithmetic), for any way the chunk list is ordered, and its mask marks the same pixels.", "quantifier": "every image list, every worker count in range (and up to 2^25, worker count times list length up to 2^50)", "why_tests_cant": "tests compare 1, 2 and 4 workers on one set of 4 images within a 20% tolerance", "anchors": ["properimage/operations.py:coadd", "properimage/operations.py:process_chunk_joblib", "properimage/utils.py:chunk_it"]}
{"id": "C05", "title": "coadd's result does not depend on the thread schedule, unless one object is in two chunks", "statement": "If all image objects in the list are distinct, or the matched filter of every object that falls into two chunks has been computed before, then whatever order the worker threads interleave in, no worker fails, and once every worker has ended the collected results are those of running the chunks one after the other. But an object whose matched filter has not been computed yet and that falls into two chunks can make coadd raise AttributeError: the filter and the loss it belongs to are stored one after the other, and a worker that looks between the two stores does not find the loss. That is the only way to fail, and a worker that does not fail has the right result, the computation of the filter being taken as one step. An object given twice to coadd with the default two workers is such a case.", "quantifier": "every interleaving of every set of chunks, with any filters stored before", "why_tests_cant": "a test sees one interleaving per run", "anchors": ["properimage/operations.py:coadd", "properimage/operations.py:process_chunk_joblib", "properimage/single_image.py:SingleImage.s_hat_comp"]}
{"id": "C06", "title": "coadd with more workers than images raises IndexError", "statement": "coadd on k >= 1 same-shape SingleImages with n_procs = p >= 2 gets through its parallel stage if and only if p <= k; for p > k it raises IndexError, a worker having no images. In particular coadd([img]) fails with the default n_procs=2.", "quantifier": "every image count and worker count (up to 2^25, their product up to 2^50)", "why_tests_cant": "no test uses more workers than images, and no finite set of pairs shows the exact boundary", "anchors": ["properimage/operations.py:coadd", "properimage/operations.py:process_chunk_joblib", "properimage/utils.py:chunk_it"]}
{"id": "C07", "title": "coadd's mask is the union of the input masks", "statement": "A pixel is marked in the mask coadd returns if and only if it is masked in at least one of the images coadded, for any number of workers up to the number of images; when no pixel of any image is masked the returned mask is numpy's scalar nomask, not an array.", "quantifier": "every list of images and masks, every worker count", "why_tests_cant": "one wrong union order or initial value only shows for particular mask combinations", "anchors": ["properimage/operations.py:coadd", "properimage/operations.py:process_chunk_joblib"]}
{"id": "C08", "title": "coadd does not depend on the order of the images", "statement": "Permuting the image list, with each image keeping its own zero point, noise and PSF, leaves R, P_r and the mask unchanged (real arithmetic).", "quantifier": "every permutation of every list, worker counts up to the number of images", "why_tests_cant": "permutations grow factorially", "anchors": ["properimage/operations.py:coadd"]}
{"id": "C09", "title": "coadd computes the Zackay & Ofek proper coaddition", "statement": "In the Fourier domain R equals sum_j (F_j/sigma_j^2) conj(P_j) M_j / sqrt(sum_j (F_j^2/sigma_j^2) |P_j|^2) for single-PSF images, M_j being the transform of image j displaced by the centre of mass of its own PSF, and coadding n copies of one image gives sqrt(n) times the coadd of one.", "quantifier": "every image list, frequency, zero point, noise level and PSF", "why_tests_cant": "a numeric test compares one data set within tolerance", "anchors": ["properimage/operations.py:coadd", "properimage/single_image.py:SingleImage.s_hat_comp", "properimage/single_image.py:SingleImage.psf_hat_sqnorm"]}
{"id": "C10", "title": "coadd's PSF sums to one", "statement": "The PSF image P_r returned by coadd sums to 1 whenever its un-normalised sum is not zero.", "quantifier": "every image list", "why_tests_cant": "the normalisation has to hold for every sum", "anchors": ["properimage/operations.py:coadd"]}
{"id": "C11", "title": "coadd rejects images of different shapes", "statement": "With align=False, coadd on images whose shapes are not all equal raises ValueError while accumulating; when all shapes are equal accumulation never raises for shape reasons and the result has that shape. An empty list raises ValueError.", "quantifier": "every list of shapes", "why_tests_cant": "the accumulator takes the minimum of the shapes, so mixed shapes look supported", "anchors": ["properimage/operations.py:coadd"]}
{"id": "C12", "title": "coadd rewrites the caller's list in place and aligns to its first image", "statement": "coadd replaces each non-SingleImage element of the list it was given by a SingleImage in the caller's own list, leaves SingleImage elements identical and keeps length and order; the aligned list has the same length, keeps the first image as the very same object and registers every other image against it; the alignment returns exactly when all these registrations do, and otherwise raises what the earliest failing one raises.", "quantifier": "every list", "why_tests_cant": "the effect on the caller's object is invisible to tests that look at the return value", "anchors": ["properimage/operations.py:coadd", "properimage/utils.py:_align_for_coadd"]}
{"id": "C13", "title": "crossmatch returns the nearest neighbour inside the radius", "statement": "For each row of X1 crossmatch returns the smallest distance to a row of X2 and an index attaining it if that distance is less than max_distance, and (inf, N2) otherwise; both results have length N1; differing second dimensions raise ValueError.", "quantifier": "every pair of point sets and radius", "why_tests_cant": "needs all geometric configurations, including ties and empty neighbourhoods", "anchors": ["properimage/utils.py:crossmatch"]}
{"id": "C14", "title": "_matching pairs sources one to one", "statement": "Two different catalogue rows never receive the same master row: the rows that get an ID are exactly the mutual nearest neighbours within the radius, and with distinct master IDs the assigned IDs are pairwise different.", "quantifier": "every pair of catalogues, radius and tie-breaking of the nearest-neighbour search", "why_tests_cant": "crowded fields and ties are exactly what fixed catalogues do not cover", "anchors": ["properimage/utils.py:_matching"]}
{"id": "C15", "title": "_matching's boolean mask drops the match to master id 0", "statement": "With masked=True the returned mask is True exactly for rows whose assigned ID is positive: a row matched to a master source with ID 0 is reported as unmatched, every other matched row with positive ID is reported as matched and no unmatched row is.", "quantifier": "every pair of catalogues", "why_tests_cant": "needs a statement over all match results", "anchors": ["properimage/utils.py:_matching"]}
{"id": "C16", "title": "transparency uses exactly the sources found in every image", "statement": "On catalogues that never went through transparency before, a master source enters the fit if and only if it is a mutual nearest neighbour within radius 2 of a source in every other image.", "quantifier": "every list of distinct images and their catalogues", "why_tests_cant": "the detection vector is updated image by image; only an invariant covers any number of images", "anchors": ["properimage/utils.py:transparency"]}
{"id": "C17", "title": "transparency on two images recovers the mean magnitude offset", "statement": "With two images, on catalogues that never went through transparency before, the difference of the returned zero points is the mean difference of the instrumental magnitudes of the common sources (new minus reference), whatever those magnitudes are.", "quantifier": "every catalogue pair and every least-squares solution", "why_tests_cant": "it is an algebraic identity of the normal equations", "anchors": ["properimage/utils.py:transparency"]}
{"id": "C18", "title": "transparency orders its equations correctly only for two images or one common source", "statement": "Row j*q+i of the linear system belongs to zero point j and mean magnitude i, so its right-hand side should be the magnitude of source i in image j. The code fills the right-hand side in another order: this holds for all fluxes if and only if there are at most two images or at most one common source. For three images and two common sources the equations of the second and third image are mixed up.", "quantifier": "every number of images and sources", "why_tests_cant": "tests never use transparency on more than one image besides the master with known answers", "anchors": ["properimage/utils.py:transparency"]}
{"id": "C19", "title": "transparency returns one zero point per image, all ones when nothing matches", "statement": "The zero-point vector has one entry per image, counting the master; when no source is common to all images it is the all-ones vector and the master's catalogue is left as it was, except that a detected column left by an earlier call on it is set to false throughout.", "quantifier": "every list of images", "why_tests_cant": "must hold for every number of images and every match outcome", "anchors": ["properimage/utils.py:transparency"]}
{"id": "C20", "title": "transparency called again on the same images counts unmatched stars when the master has changed", "statement": "Calling transparency again with the same master gives the same detections as on fresh catalogues (if no two distances tie). An image that was a non-master in an earlier call and is the master now still carries that call's sourceid column, in which unmatched stars have a common mark, and these are counted as detected as soon as every other image has an unmatched star; a worked pair of calls reports two common stars where fresh catalogues give one.", "quantifier": "every call history", "why_tests_cant": "it depends on the history of calls, not on one call", "anchors": ["properimage/utils.py:transparency", "properimage/single_image.py:SingleImage.update_sources"]}
{"id": "C21", "title": "transparency's zero points have a closed form and their ratio is not a flux ratio", "statement": "The minimum-norm least-squares zero points are zp_j = (S_j - T/(p+q))/q with S_j the sum of image j's magnitudes and T the total, so for two identical images they are equal and subtract's starting scale new.zp/ref.zp is 1; but for an image k times brighter the ratio need not be k and can be negative (a single star of flux 1 that is 100 times brighter in the other image gives -2).", "quantifier": "every magnitude table", "why_tests_cant": "closed forms over all inputs and the unit confusion need algebra", "anchors": ["properimage/utils.py:transparency", "properimage/operations.py:subtract"]}
{"id": "C22", "title": "subtract's scale and shift come from the documented switch table", "statement": "beta=False always uses the zero-point ratio as scale; shift=False always gives zero shift; iterative matters only when beta=True and shift=False; after a successful fit scale and shift are the point the optimiser returned, so that a fitted scale lies in [0.1, 10] and fitted shifts in [-0.9, 0.9]; an unsuccessful fit falls back to the zero-point ratio and zero shift.", "quantifier": "all eight switch settings and every optimiser outcome", "why_tests_cant": "optimiser outcomes cannot be forced in a unit test", "anchors": ["properimage/operations.py:subtract"]}
{"id": "C23", "title": "subtract raises when the zero-point ratio is outside the fit bounds or the fit has no pixel to look at", "statement": "With beta=True and the least-squares optimiser (shift=True or iterative=False), subtract raises ValueError if the zero-point ratio is outside [0.1, 10], instead of falling back to it; with beta=False, or iterative=True and shift=False, the ratio is never checked. With shift=True it also raises ValueError unless some unmasked pixel lies at least 100 pixels from every edge, so the default call fails for every image with a side of at most 200 pixels; with beta=True, shift=False and iterative=False unless some pixel is unmasked. In all other cases the choice of scale and shift does not raise.", "quantifier": "every zero-point pair and switch setting", "why_tests_cant": "tests only use images of similar flux", "anchors": ["properimage/operations.py:subtract"]}
{"id": "C24", "title": "subtract computes Zackay's D, P and flux zero point", "statement": "At every frequency the transform of D is (P_r N - b P_n R)/sqrt(sigma_n^2 |P_r|^2 + b^2 sigma_r^2 |P_n|^2) up to the recentring phases, and the transform of P and the flux zero point are those of the proper subtraction with F_r=1, F_n=b. N and R are the transforms of the interpolated images, P_n and P_r those of the pixels of the PSF stamps that lie within the image, with 2^-52 in place of a coefficient whose real part is zero.", "quantifier": "every image pair and frequency", "why_tests_cant": "numeric tests only check types", "anchors": ["properimage/operations.py:subtract"]}
{"id": "C25", "title": "subtracting an image from itself gives zero", "statement": "If reference and new image have the same pixels, noise, PSF and a common non-zero zero point, D is identically zero for beta=False, shift=False (with fitted_psf=False, provided the centre of mass of the PSF has no negative coordinate).", "quantifier": "every image, PSF, noise level", "why_tests_cant": "the cancellation must hold for all inputs", "anchors": ["properimage/operations.py:subtract"]}
{"id": "C26", "title": "swapping reference and new image negates D", "statement": "With scale b > 0 one way and 1/b the other way and no shift, D of (ref,new) is minus D of (new,ref).", "quantifier": "every image pair and every b > 0", "why_tests_cant": "an algebraic symmetry", "anchors": ["properimage/operations.py:subtract"]}
{"id": "C27", "title": "subtract never divides by zero in the Fourier domain", "statement": "After the guard on the PSF transforms no PSF coefficient is zero, so the noise norm is strictly positive at every frequency whenever the new image's noise is non-zero (or the reference's is and b is not zero).", "quantifier": "every PSF and every frequency", "why_tests_cant": "zeros of a transform occur for special PSFs only", "anchors": ["properimage/operations.py:subtract"]}
{"id": "C28", "title": "subtract's masks and shapes", "statement": "subtract raises ValueError before doing any photometry if the two images differ in shape; otherwise a pixel of the returned mask is set if and only if it is masked in one of the two images, and the mask is the scalar nomask when neither has a masked pixel.", "quantifier": "every pair of images", "why_tests_cant": "all mask combinations and shapes", "anchors": ["properimage/operations.py:subtract"]}
{"id": "C29", "title": "subtract's PSF has the expected total", "statement": "P sums to s_r s_n sqrt(sigma_n^2+b^2 sigma_r^2)/sqrt(sigma_n^2 s_r^2+b^2 sigma_r^2 s_n^2) where s_r, s_n are the sums of the two PSF images (b>0): 1 for unit-sum PSFs, and s for two PSFs that both sum to s, such as the unnormalised amplitude-one Gaussians of the default fitted_psf=True.", "quantifier": "every PSF pair, b > 0", "why_tests_cant": "an identity over all inputs", "anchors": ["properimage/operations.py:subtract", "properimage/single_image.py:SingleImageGaussPSF.get_variable_psf"]}
{"id": "C30", "title": "extreme pixels are always masked", "statement": "After any successful construction of a SingleImage, every pixel above 65000 or below -50 is masked, whichever kind of input, mask, guessmask, crop, gain and threshold was used.", "quantifier": "every input kind, option combination and pixel array", "why_tests_cant": "the mask setter has ten branches times all arrays", "anchors": ["properimage/single_image.py:SingleImage.mask"]}
{"id": "C31", "title": "mask growth never unmasks and stays within seven pixels", "statement": "The growth step only adds masked pixels; each added pixel is within Chebyshev distance 7 of a pixel masked before growth; growth of a larger mask is larger; an empty mask stays empty.", "quantifier": "every mask of every shape", "why_tests_cant": "all masks", "anchors": ["properimage/single_image.py:SingleImage.mask"]}
{"id": "C32", "title": "mask growth needs three masked pixels in the 3x3 window", "statement": "One growth iteration masks a pixel exactly when it was masked or at least 3 of the 9 (edge-reflected) window cells are masked; a single masked pixel in an image at least 2x2 never grows, and two masked neighbours do not suffice away from the edges although the comment says 'using 2 or more neighbor pixels'.", "quantifier": "every mask and position, including edges and corners", "why_tests_cant": "edges and corners use reflected windows", "anchors": ["properimage/single_image.py:SingleImage.mask"]}
{"id": "C33", "title": "an explicit mask is honoured", "statement": "Every pixel marked in a mask array of the same shape as the image data is masked in the SingleImage; with a crop the mask is assigned in flat order to the cropped data, so it is misaligned instead of rejected.", "quantifier": "every mask and image, every crop", "why_tests_cant": "all masks", "anchors": ["properimage/single_image.py:SingleImage.mask", "properimage/single_image.py:SingleImage.data"]}
{"id": "C34", "title": "invalid pixels are masked when no mask is given for an array, and not otherwise", "statement": "For an ndarray, MaskedArray or PrimaryHDU with guessmask and no mask, every NaN or infinite pixel is masked. With an explicit mask, an extension mask, guessmask=False or a file without EXTEND, a NaN pixel that the mask misses stays unmasked.", "quantifier": "every image and every construction branch", "why_tests_cant": "branch times data", "anchors": ["properimage/single_image.py:SingleImage.mask"]}
{"id": "C35", "title": "gain and crop options take effect", "statement": "When a mask is given, when guessmask is False, for MaskedArrays and for files, without border removal, the stored value of an unmasked input pixel is gain times the cropped input pixel (pixels already masked in a MaskedArray are not multiplied). For an ndarray or PrimaryHDU with guessed mask the stored pixels are the original uncropped input pixels: gain, crop and border options are silently ignored.", "quantifier": "every input kind and option combination", "why_tests_cant": "needs all branches; existing tests use neither gain nor crop", "anchors": ["properimage/single_image.py:SingleImage.data", "properimage/single_image.py:SingleImage.mask", "properimage/single_image.py:SingleImage.gain"]}
{"id": "C36", "title": "crop removes exactly the requested margins", "statement": "With crop=((a,b),(c,d)) and b,d > 0, a+b <= rows, c+d <= cols, the data has shape (rows-a-b, cols-c-d) and pixel (i,j) is input pixel (i+a, j+c). If b = 0 or d = 0 while some margin is positive, the result is empty.", "quantifier": "every crop and image", "why_tests_cant": "all sizes", "anchors": ["properimage/single_image.py:SingleImage.data"]}
{"id": "C37", "title": "mask files are thresholded by their majority", "statement": "For a mask image with median 0 a pixel is bad iff its value >= maskthresh; otherwise iff its value <= maskthresh. For a 0/1 image the median is 0 iff fewer than half of the pixels are 1.", "quantifier": "every mask image without negative values, every threshold", "why_tests_cant": "all mask images", "anchors": ["properimage/single_image.py:SingleImage.mask", "properimage/single_image.py:SingleImage.maskthresh"]}
{"id": "C38", "title": "a mask written by store_img is not read back at the default threshold", "statement": "A masked image written by utils.store_img and reopened as SingleImage(path) does not keep its mask: with the default threshold the stored 0/1 mask plane is read back as all-good when fewer than half of the pixels are masked, and as all-bad otherwise. With a threshold in (0, 1] and fewer than half masked, exactly the stored masked pixels are marked (before growth).", "quantifier": "every mask", "why_tests_cant": "a round trip over all masks", "anchors": ["properimage/utils.py:store_img", "properimage/single_image.py:SingleImage.mask", "properimage/single_image.py:SingleImage.maskthresh"]}
{"id": "C39", "title": "border trimming only removes empty border", "statement": "On a non-negative, non-empty image, borders=True raises UnboundLocalError exactly when the middle row or the middle column is all zero. Otherwise all rows and columns removed at the bottom and on the right are zero, and all removed at the top and on the left are zero except possibly the last one removed on each side, which can be non-zero.", "quantifier": "every non-negative image", "why_tests_cant": "all images", "anchors": ["properimage/single_image.py:SingleImage.data"]}
{"id": "C40", "title": "construction rejects what it cannot load", "statement": "Unsupported input kinds raise AttributeError at construction; an HDUList whose primary header has EXTEND true but which holds a single HDU raises IndexError, while the same content given as a path is accepted.", "quantifier": "every input", "why_tests_cant": "branch coverage over all inputs", "anchors": ["properimage/single_image.py:SingleImage.__init__", "properimage/single_image.py:SingleImage.mask", "properimage/single_image.py:SingleImage.gain"]}
{"id": "C41", "title": "best_sources holds between 2 and 1800 detected sources", "statement": "Whenever best_sources returns, it has at least 2 and at most 1800 rows, pairwise different detections, all of them rows of one of sep's extractions; 0 or 1 detections always raise ValueError.", "quantifier": "every behaviour of sep and of the random choice, every image", "why_tests_cant": "sep's output is external", "anchors": ["properimage/single_image.py:SingleImage.best_sources"]}
{"id": "C42", "title": "the detection ladder never ends with fewer sources than it started with", "statement": "If the first extraction succeeds with k sources, the list the quality cuts start from has at least k sources; the low-threshold retry happens exactly when k < min_sources.", "quantifier": "every sequence of extraction results and failures", "why_tests_cant": "extraction failures are not reproducible", "anchors": ["properimage/single_image.py:SingleImage.best_sources"]}
{"id": "C43", "title": "quality cuts fall back to all sources", "statement": "best_sources is the set of sources passing the five size/flag/flux cuts when at least 5 pass, and all detected sources otherwise (for at most 1800 detections).", "quantifier": "every detection list", "why_tests_cant": "all catalogues", "anchors": ["properimage/single_image.py:SingleImage.best_sources"]}
{"id": "C44", "title": "update_sources replaces the catalogue but not what was derived from it", "statement": "After update_sources(cat), best_sources is cat until the next change; update_sources before best_sources was ever evaluated raises AttributeError; n_sources and stamp positions computed earlier keep their old values.", "quantifier": "every call history", "why_tests_cant": "it is a property of call sequences", "anchors": ["properimage/single_image.py:SingleImage.update_sources", "properimage/single_image.py:SingleImage.n_sources"]}
{"id": "C45", "title": "the default stamp is odd, square and at least 5 pixels", "statement": "When no stamp shape is given it is (d,d) with d odd, d >= 5 and d the integer part of 3*sqrt(65th percentile of npix), plus one if that is even (or 5 when 3*sqrt(...) <= 5).", "quantifier": "every catalogue", "why_tests_cant": "all catalogues", "anchors": ["properimage/single_image.py:SingleImage.stamp_shape"]}
{"id": "C46", "title": "stamps, positions and counts stay aligned", "statement": "After stamps_pos is evaluated, stored stamp i was cut at position i, there are exactly n_sources of each, every candidate is either stored or rejected, and accepted candidates keep their order.", "quantifier": "every candidate list and every accept/reject outcome", "why_tests_cant": "all accept/reject patterns", "anchors": ["properimage/single_image.py:SingleImage.stamps_pos", "properimage/single_image.py:SingleImage.n_sources"]}
{"id": "C47", "title": "every stored stamp has the final stamp shape", "statement": "Every stamp stored by stamps_pos has exactly the shape stamp_shape reports afterwards (six pixels larger than before), or stamp extraction raises. For a candidate it raises TypeError only if its margin pixels are all exactly 3.5 times the background rms at the starting size or after one enlargement, or a margin pixel is NaN after one enlargement; ValueError only if its stamp does not overlap the image; IndexError only with strict picking when the stamp comes out NaN.", "quantifier": "every image, candidate list and stamp size", "why_tests_cant": "depends on pixel values through the margin test", "anchors": ["properimage/single_image.py:SingleImage.stamps_pos"]}
{"id": "C48", "title": "the margin test accepts everything but one exact value", "statement": "The margin test that should detect too small stamps reports 'enlarge' for every stamp unless all margin pixels equal 3.5*rms exactly (or one of them is NaN); all other stamps are enlarged three times.", "quantifier": "every stamp and rms", "why_tests_cant": "a universal statement", "anchors": ["properimage/single_image.py:SingleImage.stamps_pos"]}
{"id": "C49", "title": "strict star picking is not disabled by few candidates", "statement": "With 20 or fewer candidates stamps_pos announces that strict picking is disabled, but the candidates are still processed with the setting given at construction: the flag that is cleared is not the flag that is read. There is an image with one candidate that is rejected with strict picking on and accepted with it off.", "quantifier": "every candidate list", "why_tests_cant": "needs equality for all inputs", "anchors": ["properimage/single_image.py:SingleImage.stamps_pos"]}
{"id": "C50", "title": "rejected sources are removed from the catalogue only if 15 remain", "statement": "After stamps_pos, best_sources is the accepted candidates if at least 15 were accepted and all candidates otherwise, so len(best_sources) = n_sources iff at least 15 were accepted or none was rejected.", "quantifier": "every accept/reject outcome", "why_tests_cant": "all outcomes", "anchors": ["properimage/single_image.py:SingleImage.stamps_pos"]}
{"id": "C51", "title": "a stamp shows the image around its source", "statement": "A stamp of odd size n cut at (y,x) contains image pixel (r,c) at the offset from the source pixel and the fill value outside the image; enlarging by two adds one pixel on each side and keeps the centre.", "quantifier": "every position, size and image", "why_tests_cant": "all positions including edges", "anchors": ["properimage/single_image.py:SingleImage.stamps_pos"]}
{"id": "C52", "title": "the PSF basis is the shortest one that keeps the requested information", "statement": "For 0 <= inf_loss and a covariance matrix that is not zero, the number of basis elements is between 1 and n_sources, the kept eigenvalue power is at least 1 - inf_loss, and one element fewer would keep less; it never decreases when inf_loss decreases. A negative inf_loss asks for one element more than there are sources.", "quantifier": "every spectrum and every inf_loss", "why_tests_cant": "all spectra", "anchors": ["properimage/single_image.py:SingleImage._setup_kl_basis"]}
{"id": "C53", "title": "the PSF covariance matrix is symmetric and positive semidefinite", "statement": "Reading cov_matrix of a measured image whose stored stamps are finite gives, for two or more sources, a symmetric positive semidefinite matrix with a row and a column for each source, both for at most 250 sources (np.cov) and for more (inner products); for one source it is a number instead of a matrix. It is computed once. With a stamp that is not finite it is not finite.", "quantifier": "every stamp set of every size", "why_tests_cant": "all stamp sets; the large branch needs >250 stars", "anchors": ["properimage/single_image.py:SingleImage.cov_matrix"]}
{"id": "C54", "title": "the two covariance formulas differ by a known constant", "statement": "For 2 to 250 sources entry (a, b) of cov_matrix is the sample covariance of the pixels of the stored stamps a and b, for more it is the sum of the products of their pixels, for stamps of any shape. So for 2 to 250 unit-sum stamps of n pixels cov_matrix is (Gram - 1/n)/(n-1) entrywise, for more than 250 it is the Gram matrix itself; the two formulas never give the same matrix for the same stamps.", "quantifier": "every stamp set (unit-sum where stated)", "why_tests_cant": "an identity for all stamps", "anchors": ["properimage/single_image.py:SingleImage.cov_matrix"]}
{"id": "C55", "title": "basis element i and coefficient field i belong to the same eigenvector", "statement": "In get_variable_psf's result element i of the PSF basis and coefficient field i are built from the same eigenvector, the one with the i-th largest eigenvalue; there are as many fields as basis elements, or [None] for one element.", "quantifier": "every eigen-decomposition and cut", "why_tests_cant": "index reversal must match for all sizes", "anchors": ["properimage/single_image.py:SingleImage._setup_kl_basis", "properimage/single_image.py:SingleImage._setup_kl_a_fields"]}
{"id": "C56", "title": "get_variable_psf honours the inf_loss it is given", "statement": "In any history of API calls that does not assign inf_loss directly and in which no get_variable_psf call with a new inf_loss raised, get_variable_psf(l) returns basis and coefficients computed for l, and get_variable_psf() those for the current inf_loss. After assigning inf_loss = l directly, get_variable_psf(l) returns the cached PSF of the old value.", "quantifier": "every call history", "why_tests_cant": "state machine over all histories", "anchors": ["properimage/single_image.py:SingleImage.get_variable_psf", "properimage/single_image.py:SingleImage._setup_kl_basis", "properimage/single_image.py:SingleImage._setup_kl_a_fields"]}
{"id": "C57", "title": "s_component follows inf_loss except back to its first value", "statement": "The first reading of s_component, and every reading at an inf_loss other than that of the first reading, is the inverse transform of s_hat_comp for the current inf_loss; a later reading at the inf_loss of the first reading returns the previous reading. So after changing inf_loss, reading, and changing back, the component of the intermediate inf_loss is returned.", "quantifier": "every history of reads and inf_loss changes", "why_tests_cant": "needs a particular three-step history", "anchors": ["properimage/single_image.py:SingleImage.s_component", "properimage/single_image.py:SingleImage.s_hat_comp"]}
{"id": "C58", "title": "s_hat_comp does not follow later zero points or normalisations", "statement": "s_hat_comp uses the zero point current at its first evaluation; assigning zp later does not refresh it. normal_image is computed once, so after a change of inf_loss s_hat_comp combines the new PSF with the normalisation of the old one.", "quantifier": "every history", "why_tests_cant": "needs two coadds sharing an image", "anchors": ["properimage/single_image.py:SingleImage.s_hat_comp", "properimage/single_image.py:SingleImage.normal_image", "properimage/single_image.py:SingleImage.zp", "properimage/operations.py:coadd"]}
{"id": "C59", "title": "get_psf_xy returns a unit-sum PSF inside the image", "statement": "For odd square PSFs and positions at least half a stamp from every edge, get_psf_xy is the sum of the basis elements, each times its own field and over the normalisation at the pixel underneath, divided by its sum, so it sums to 1 if that sum is not zero. Closer to an edge, for even PSFs of 4 or more rows, and for oblong PSFs it raises a ValueError. Positions outside of the image are accepted if the window overlaps it in one row only, or lies entirely before the first row: then the normalisation is read from the opposite end of the image. A constant PSF is returned as it is, for every position.", "quantifier": "every position and PSF size", "why_tests_cant": "all positions", "anchors": ["properimage/single_image.py:SingleImage.get_psf_xy"]}
{"id": "C60", "title": "the interpolated image has no NaN and keeps good pixels", "statement": "interped ends after one interpolation (its loop is never entered) with no NaN and with every unmasked pixel that is not NaN unchanged. A masked pixel becomes the weighted mean of the valid pixels of the 11 by 11 window round it, pixels outside of the image counting as zeros; if the window lies in the image and holds no valid pixel, it becomes 0 whatever surrounds the hole, so that a masked patch of 11 or more pixels across in a constant image gets a crater: its inner pixels become 0, those nearer to valid pixels the constant. An entirely masked image comes back as zeros. A masked pixel within five pixels of the border of a constant positive image becomes strictly smaller than the constant. Interpolated values lie between the extremes of the valid values and zero. Cosmic-ray detections have no influence on the result.", "quantifier": "every image, mask and cosmic-ray mask", "why_tests_cant": "termination over all masks", "anchors": ["properimage/single_image.py:SingleImage.interped"]}
{"id": "C61", "title": "leaving the context removes the temporary files", "statement": "After with SingleImage(...), whether or not its body raised, both database files are gone if both existed or neither did, and the body's result or exception is passed on. If the .dat file is missing or cannot be removed, the .map file is left behind, however often one cleans. Cleaning never raises, cleaning twice is cleaning once, and other files are not touched.", "quantifier": "every file-system state and history", "why_tests_cant": "file-system states and partial failures", "anchors": ["properimage/single_image.py:SingleImage._clean", "properimage/single_image.py:SingleImage.__exit__"]}
{"id": "C62", "title": "primes returns a divisor built from the largest prime factors", "statement": "plot.primes(n) is n exactly for n < 2 and primes, the largest prime factor of composite n with fewer than four distinct prime factors, and the product of the two largest of four or more; it always divides n.", "quantifier": "every n", "why_tests_cant": "all integers", "anchors": ["properimage/plot.py:primes"]}
{"id": "C63", "title": "default plot grids have room for every panel", "statement": "The grid chosen by plot.autopsf for N >= 1 basis elements has at least N cells, exactly N for composite N, and autopsf draws element k in axes k; likewise autopsf_coef for its fields, which raises NoDataToPlot for a constant PSF. One element gets a 1 x 2 grid with an empty panel. Too few given axes raise a ValueError if they are an array, but a TypeError for a single axes object. Contours raise a TypeError for a PSF that is not square, and iso_kw has no effect.", "quantifier": "every N", "why_tests_cant": "all integers", "anchors": ["properimage/plot.py:Plot.autopsf", "properimage/plot.py:Plot.autopsf_coef", "properimage/plot.py:primes"]}
{"id": "C64", "title": "plot dispatch accepts exactly its public methods", "statement": "si.plot(name) runs a plot for name None (imshow), 'imshow', 'autopsf' and 'autopsf_coef' and raises ValueError for every other string.", "quantifier": "every string", "why_tests_cant": "all strings", "anchors": ["properimage/plot.py:Plot.__call__"]}
{"id": "C65", "title": "Psf is a non-negative unit-sum image without index errors", "statement": "simtools.Psf(N, FWHM_x, FWHM_y) with theta=0, N >= 1 (whole or not) and positive FWHM never raises. It is an array of NaN exactly if N < 2 or five times the larger sigma is below one pixel; otherwise it has int(N) pixels a side, is non-negative and sums to 1. Swapping the two FWHM transposes it.", "quantifier": "every N and FWHM", "why_tests_cant": "all sizes and widths", "anchors": ["properimage/simtools.py:Psf"]}
{"id": "C66", "title": "Psf is truncated off-centre", "statement": "The pixels Psf fills are not symmetric about the centre. For odd N >= 3 and a Gaussian wide enough to fill the array exactly the last row and column are zero. For even N and such a width every pixel is the Gaussian at its index, except that the last row and column hold the values for index -1.", "quantifier": "every N", "why_tests_cant": "all sizes", "anchors": ["properimage/simtools.py:Psf"]}
{"id": "C67", "title": "astropy_Psf fails exactly when its tail leaves the array", "statement": "astropy_Psf(N, FWHM) with tail = int(7*FWHM/2.335) raises IndexError exactly when tail >= 1 and (N-1)//2 + tail > N, and raises nothing else. Otherwise it is NaN exactly when tail is 0, and else non-negative with sum 1.", "quantifier": "every N and FWHM", "why_tests_cant": "all sizes", "anchors": ["properimage/simtools.py:astropy_Psf", "properimage/simtools.py:cartesian_product"]}
{"id": "C68", "title": "airy_patron is singular exactly at the centre of odd arrays", "statement": "airy_patron(N, width), for a width other than zero, evaluates its radial function at radius 0 exactly for odd N and exactly at the centre pixel, giving NaN there; for even N every pixel is finite and non-negative. The pattern is symmetric about the diagonal and under reflection.", "quantifier": "every N", "why_tests_cant": "all sizes", "anchors": ["properimage/simtools.py:airy_patron", "properimage/simtools.py:_airy_func"]}
{"id": "C69", "title": "the Sersic profile is normalised, positive and decreasing", "statement": "perfilsersic(r_e, I_e, n, r) equals exp(-b (r/r_e)^(1/n)), does not depend on I_e, is 1 at r=0 and is positive, for n > 0, I_e != 0. For r_e > 0 it is strictly decreasing in r >= 0 if and only if n > 0.327/1.999, and strictly increasing for smaller n.", "quantifier": "all parameters", "why_tests_cant": "a real-analysis statement", "anchors": ["properimage/simtools.py:perfilsersic"]}
{"id": "C70", "title": "gal_sersic leaves its last row and column empty and cuts at four radii", "statement": "gal_sersic(N, n) has shape NxN, last row and column zero, zero beyond four scale radii and the positive profile value elsewhere, for n > 0. For N >= 3 it is not symmetric: a pixel of the first row is not zero and its mirror image is. The corner is empty.", "quantifier": "every N, n", "why_tests_cant": "all sizes", "anchors": ["properimage/simtools.py:gal_sersic"]}
{"id": "C71", "title": "cartesian_product lists every tuple once in order", "statement": "cartesian_product(arrays) has product-of-lengths rows, row k being the k-th tuple in lexicographic (last index fastest) order, with all values converted to the type of the first array. An empty list of arrays raises IndexError.", "quantifier": "every list of arrays", "why_tests_cant": "all lists", "anchors": ["properimage/simtools.py:cartesian_product"]}
{"id": "C72", "title": "delta_point puts weights in reverse order and the last point wins", "statement": "delta_point(N, center=False, xy, weights) puts on each pixel the weight of the last point that hits it, point i taking weight number len(weights)-1-i, zero elsewhere; too few weights or a coordinate outside [-N, N) raise IndexError; the default puts a single 1 at (N//2, N//2), and raises IndexError for N = 0. Coordinates are truncated. An iterator such as zip(x, y), the example of the docstring, raises TypeError unless weights are given.", "quantifier": "all point lists", "why_tests_cant": "all lists", "anchors": ["properimage/simtools.py:delta_point"]}
{"id": "C73", "title": "sim_varpsf tiles four frames", "statement": "Pixel (r,c) of sim_varpsf's frame is pixel (r mod N, c mod N) of the frame number (r div N) + 2 (c div N); fewer than four thetas always raise, with IndexError if the frames could be made. With a seed all four quadrants carry the same pattern of standard normal noise, scaled by the quadrant's brightest pixel over SN, and every pixel contains the bias of 100 twice; without a seed the frames continue the generator of the module, and later calls continue where they stopped. Drawn stars lie at least 15 pixels inside; with four or more stars a frame of at most six times the larger FWHM raises ValueError. For four or more angles above -180 degrees, a non-negative SN and fewer than four stars or frames with room between the margins, a frame of 2N by 2N pixels is returned, provided that no field convolved with a rotated PSF is negative throughout.", "quantifier": "every N and pixel", "why_tests_cant": "all sizes", "anchors": ["properimage/simtools.py:sim_varpsf"]}
{"id": "C74", "title": "image adds noise, signal and bias or fails on unknown noise names", "statement": "For an NxN master simtools.image returns noise + master convolved with the PSF + bias pixelwise, with Poisson noise of mean b/SN or Gaussian noise of standard deviation b/SN for b the brightest convolved pixel, and raises ValueError for b/SN < 0. A point source becomes a copy of the PSF with pixel ((h-1)//2, (w-1)//2) on the source. Psf with an angle is the rotated image of the unrotated, unnormalised PSF divided by its own sum. A master of another shape without a side of 1 raises. A bkg_pdf other than 'poisson' and 'gaussian' raises UnboundLocalError. t_exp and std have no influence. With a seed the result does not depend on earlier calls, nor do later ones depend on it.", "quantifier": "every master frame and option", "why_tests_cant": "all inputs", "anchors": ["properimage/simtools.py:image"]}
{"id": "C75", "title": "find_S_local_maxima reports one entry per island, in its bounding box", "statement": "If find_S_local_maxima returns, it gives one entry per connected region above threshold: the region's centroid as (column, row) and the significance of the pixel at its truncated position. If the detection level mean + threshold*std is not negative it always returns, and each position is in the bounding box of its region; it need not be in the region, so the reported significance can be below the threshold and negative. With pixels of both signs in a region it can raise ValueError, OverflowError or IndexError, or report a position outside of the image.", "quantifier": "every image and threshold", "why_tests_cant": "all images", "anchors": ["properimage/utils.py:find_S_local_maxima"]}
{"id": "C76", "title": "store_img writes the real part and the mask", "statement": "store_img of a complex128 array stores its real part, of a masked array what astropy's scale(type='float32') makes of the data and a 0/1 mask plane, of other arrays the values. It returns the HDU if and only if no path is given. It fails exactly for empty arrays (IndexError), boolean, complex64, and complex128 masked arrays whose first pixel is masked (KeyError), and masked arrays without a mask array (TypeError).", "quantifier": "every array", "why_tests_cant": "all inputs", "anchors": ["properimage/utils.py:store_img"]}
{"id": "C77", "title": "_align_for_diff never overwrites the new image", "statement": "The file written by _align_for_diff is in the directory of newpath with name 'aligned_'+basename, and is a different path from newpath; no other file changes, and none if the call raises. Different names or directories give different files. The reference itself is overwritten if it has that name. With an astroalign whose register returns a pair (which the coaddition requires) every call fails.", "quantifier": "every path", "why_tests_cant": "all strings", "anchors": ["properimage/utils.py:_align_for_diff"]}
{"id": "C78", "title": "the shift fit of subtract looks only at pixels 100 away from every edge", "statement": "The cost minimised when subtract fits a shift does not change when residual pixels within 100 of an edge change; for an image with a side of at most 200 pixels no pixel contributes for any scale and shift, and subtract with shift=True always fails, with ValueError if shapes, masks and photometry are in order.", "quantifier": "every residual image, scale and shift", "why_tests_cant": "the tests use small images, where the fit silently does nothing", "anchors": ["properimage/operations.py:subtract"]}
{"id": "C79", "title": "subtract rolls the background along the flattened image", "statement": "The background term of subtract's shift fit is rolled by round(dx)+round(dy) places in flattened (row-major) order: opposite shifts cancel, a one-pixel shift along rows moves it along columns, and shifts of at most half a pixel do not move it.", "quantifier": "every background image and shift", "why_tests_cant": "all images and shifts", "anchors": ["properimage/operations.py:subtract"]}
{"id": "C80", "title": "subtract's D is real for odd sides, and need not be for even sides", "statement": "The inverse transform giving D has no imaginary part if on each axis the image has an odd number of pixels or the PSF centroids and the fitted shift are whole pixels; there are images with an even side for which taking the real part discards a non-zero imaginary part. The PSF image P is always real before the real part is taken.", "quantifier": "every pair of images and parameters", "why_tests_cant": "the loss depends on the Nyquist term of every image size", "anchors": ["properimage/operations.py:subtract"]}
{"id": "C81", "title": "reading the star positions changes the interpolated image", "statement": "Cutting the stamp of a candidate subtracts the stamp's background level (the median of its faint pixels) from the cached interpolated image under the enlarged stamp when that lies inside the image, and changes no other pixel; a stamp that sticks out of the image or is dropped for a NaN leaves the image unchanged. So interped returns different pixels before and after stamps_pos is read.", "quantifier": "every image, candidate and stamp size", "why_tests_cant": "the change is a side effect on a cached array; it depends on every star position", "anchors": ["properimage/single_image.py:SingleImage.stamps_pos", "properimage/single_image.py:SingleImage.interped"]}
{"id": "C82", "title": "a requested stamp shape makes every reading cut the stamps again", "statement": "Once a stamp shape has been requested (get_variable_psf(shape=...)), stamp_shape becomes the requested shape plus six, so every later reading of stamps_pos cuts all stamps again from the image changed by the previous cut; without a requested shape the positions are computed once.", "quantifier": "every image, candidate list and shape", "why_tests_cant": "all call sequences", "anchors": ["properimage/single_image.py:SingleImage.stamps_pos", "properimage/single_image.py:SingleImage.get_variable_psf"]}
{"id": "C83", "title": "the PSF decomposition reconstructs the stamps", "statement": "With all elements kept, combining the PSF basis with a star's own coefficients gives back its stamp exactly, pixel by pixel and oriented as the stamp. For unit-sum stamps of n pixels and at most 250 stars the total squared error of keeping k elements is the sum over discarded eigenvectors of (n-1) times the eigenvalue plus the squared sum of the eigenvector's components divided by n.", "quantifier": "every stamp set and number of elements, and every orthonormal eigenbasis", "why_tests_cant": "all stamp sets; the error formula shows the cut ignores the mean level", "anchors": ["properimage/single_image.py:SingleImage.kl_basis", "properimage/single_image.py:SingleImage.cov_matrix"]}
{"id": "C84", "title": "a normalised PSF can divide by zero", "statement": "For unit-sum stamps a PSF basis element sums to the sum of its eigenvector's components. There are two non-negative unit-sum stamps for which, for every inf_loss >= 0 and every valid eigen-decomposition, a single element is kept and it sums to zero, so dividing by the sum does not give a PSF.", "quantifier": "every stamp set; the witness holds for every eigen-decomposition and inf_loss", "why_tests_cant": "depends on eigenvectors", "anchors": ["properimage/single_image.py:SingleImage.kl_basis", "properimage/single_image.py:SingleImage.get_variable_psf"]}
{"id": "C85", "title": "a failed get_variable_psf call makes the next one return the wrong PSF", "statement": "If get_variable_psf(l) with a new l raises while building the basis, then l is recorded although the basis is still the old one, and repeating get_variable_psf(l) returns the PSF of the previous inf_loss without error.", "quantifier": "every object state and inf_loss", "why_tests_cant": "needs a failure followed by a retry", "anchors": ["properimage/single_image.py:SingleImage.get_variable_psf"]}
{"id": "C86", "title": "coadd of one image with a one-pixel PSF is that image divided by its variance and by the square root of its number of pixels", "statement": "For a single image whose PSF is a stamp of a single pixel of value 1, the coadded image equals the interpolated pixels divided by var times the square root of the number of pixels: the coadd depends on the size of the frame, because the PSF transforms are normalised orthonormally.", "quantifier": "every image, positive zero point and positive noise level", "why_tests_cant": "tests compare no absolute values and use one frame size", "anchors": ["properimage/operations.py:coadd", "properimage/single_image.py:SingleImage.s_hat_comp"]}
{"id": "C87", "title": "subtract's score image is Zackay's corrected score divided by the wrong unit", "statement": "Whatever the options, if subtract returns then D and P are the inverse transforms of Zackay's formulas at the fitted scale and shift, and every pixel of S is the matched filter kn*N - kr*R centred on P's centre of mass (or on its peak when they differ by more than 30 pixels), divided by the square root of the circular convolutions of (pixels + 1) with the squared kernels, times |b / new.zp|. Hence with beta=False and shift=False multiplying both zero points by a constant c leaves D and P unchanged but divides S by |c|.", "quantifier": "every pair of images whose pixels are at least -1, every option, every optimiser outcome", "why_tests_cant": "needs the convolution theorem and algebra over all frequencies; no test checks the score's scale", "anchors": ["properimage/operations.py:subtract"]}
{"id": "C88", "title": "transparency's mean magnitudes and the catalogues it leaves behind", "statement": "With a minimum-norm solver entry i of the mean magnitudes is the sum over images of the right-hand sides of source i, less the total over p+q, divided by p; for two images it is the mean of the two magnitudes minus one common offset. Every other image's catalogue ends up a permutation of the old rows, each numbered with the index of its mutual neighbour in the master or with -13133, in ascending order of that number.", "quantifier": "every list of distinct images and their catalogues", "why_tests_cant": "closed forms and permutation invariants over all catalogues", "anchors": ["properimage/utils.py:transparency", "properimage/single_image.py:SingleImage.update_sources"]}
{"id": "C89", "title": "what subtract makes of its arguments", "statement": "Image objects of the class subtract works with are used as they are, but a plain SingleImage passed with the default fitted_psf=True is rebuilt from its masked pixels, which grows its mask by another seven iterations: an image masked in its first k rows is used with its first k+7 rows masked. A file name, HDU list or array from which no image can be built ends in AttributeError whatever went wrong (also for a missing file). A masked array or image HDU that is refused is tried again as a bare array: if the rest of the constructor accepts that, subtract goes on with the mask discarded. With align=True the mask of the aligned image grows from the registration footprint and the extreme pixels alone, not from the mask the new image had. Images of different shape, also after alignment, are refused with ValueError; otherwise the mask is the union.", "quantifier": "every pair of arguments, option and registration result", "why_tests_cant": "needs arbitrary masks and every failure of the constructor", "anchors": ["properimage/operations.py:subtract", "properimage/single_image.py:SingleImage"]}
{"id": "C90", "title": "the Gaussian PSF of subtract is centred at exchanged coordinates and is not normalised", "statement": "With fitted_psf=True pixel (i, j) of the PSF image is exp of minus half the squared elliptical distance from row width/2 and column height/2. So it equals one exactly there; in an image at least twice as wide as high (or as high as wide) no pixel reaches one and a round PSF grows towards the border. In square images it is centred, and for even sizes the pixels sum to more than one, and so does the P that subtract returns for two images with that PSF.", "quantifier": "every image shape, width and angle", "why_tests_cant": "tests use nearly square images", "anchors": ["properimage/operations.py:subtract", "properimage/single_image.py:SingleImageGaussPSF.get_variable_psf"]}
{"id": "C91", "title": "how the Gaussian PSF is averaged over the stars", "statement": "The widths of the Gaussian PSF lie between the smallest and the largest fitted widths, equal parameters are reproduced exactly, and order, amplitudes, backgrounds and inf_loss have no influence. Measuring all stars in another unit, turning them all by one angle or mirroring them does the same to the PSF. With up to five stars the 3-sigma clipping never removes a star. But the parameters are averaged one by one although several describe the same profile: two stars with the same elongated profile, one fitted with exchanged widths at a right angle, give a round PSF, and the same star fitted at +90 and -90 degrees gives one turned by 90 degrees.", "quantifier": "every list of fitted parameters", "why_tests_cant": "inequalities over all lists of numbers", "anchors": ["properimage/single_image.py:SingleImageGaussPSF.get_variable_psf"]}
{"id": "C92", "title": "with coefficients that do not vary, the variable-PSF filter is the single-PSF filter of the combination, centred on the wrong element", "statement": "If every coefficient field of an image is a constant, the normalisation image is the same number in every pixel, edges included, and s_hat_comp equals the single-PSF filter of the weighted sum of the basis elements divided by its total, except that it is recentred by the centre of mass of the first basis element instead of that of the combination. psf_hat_sqnorm does not depend on the coefficients at all: it is the sum of the squared moduli of the transforms of all basis elements.", "quantifier": "every image, basis and list of constant coefficients", "why_tests_cant": "needs linearity of the transform over all images; no test uses coefficient fields with known PSF", "anchors": ["properimage/single_image.py:SingleImage.s_hat_comp", "properimage/single_image.py:SingleImage.normal_image", "properimage/single_image.py:SingleImage.psf_hat_sqnorm"]}
{"id": "C93", "title": "the brightness of a coadd depends on how many basis elements describe the PSF", "statement": "Describing the constant unit-sum PSF of an image by m copies of it, with coefficients of any non-zero sum, divides every pixel of its coadd by the square root of m. More generally, for images with constant coefficients and basis elements of unit sum the pixels of the coadd add up to the sum of zp/var^2 times the image totals, divided by the square root of the number of pixels and by the square root of the sum of zp^2/var^2 times the number of basis elements.", "quantifier": "every list of images, basis and number of workers", "why_tests_cant": "absolute brightness of coadds with different bases is not tested", "anchors": ["properimage/operations.py:coadd", "properimage/single_image.py:SingleImage.psf_hat_sqnorm"]}
{"id": "C94", "title": "the filtered image of a lone star peaks at the star", "statement": "If an image contains nothing but one star of flux c drawn with the image's constant PSF, at any place and wrapping around the edges, and the centre of mass of the PSF is a whole pixel, then s_component is largest at the star's centre, where it is zp c / var^2 times the sum of the squared PSF pixels, divided by the square root of the number of pixels. For any image with such a PSF s_component is the circular correlation of image and PSF moved by the centre of mass, times zp/var^2, divided by that square root.", "quantifier": "every image shape, PSF, position, non-negative flux and zero point", "why_tests_cant": "a maximum over all pixels for all PSFs and positions", "anchors": ["properimage/single_image.py:SingleImage.s_hat_comp", "properimage/single_image.py:SingleImage.s_component"]}
{"id": "C95", "title": "where the squared PSF of an image is centred", "statement": "For an even stamp size p_sqnorm is real, equals the sum of the autocorrelations of the basis elements rolled by half a stamp and divided by the square root of the number of pixels, and is largest at half the stamp size. For every stamp size, reflecting a pixel in half the stamp size gives the complex conjugate; so with the odd stamps the package uses there is no central pixel: the pixels on either side of the centre have the same modulus.", "quantifier": "every basis, image shape and stamp shape", "why_tests_cant": "symmetry of a transform over all images", "anchors": ["properimage/single_image.py:SingleImage.p_sqnorm", "properimage/single_image.py:SingleImage.psf_hat_sqnorm"]}
{"id": "C96", "title": "the PSF that coadd returns is real, symmetric and largest at the stamp size", "statement": "For images with real single PSFs the PSF image that coadd returns has no imaginary part, is symmetric about the pixel whose two coordinates are the stamp size modulo the image shape, and no pixel exceeds that one in absolute value. So it is centred a full stamp, not half a stamp, away from the corner.", "quantifier": "every list of images, PSFs, stamp size and number of workers", "why_tests_cant": "maximum and symmetry over all pixels", "anchors": ["properimage/operations.py:coadd"]}
{"id": "C97", "title": "What strict star picking rejects", "statement": "With strict picking on, a stamp without NaN is rejected exactly when its first brightest pixel is further than a fifth of the height from the middle, or the standard deviation of its pixels exceeds 0.15, or a pixel exceeds 1/2, or there are two or more local maxima, or there is one and it is further than a fifth of the height from the middle; a stamp with NaN raises. On a unit-sum stamp of 23 or more pixels, none negative, the standard deviation test rejects nothing that the test for pixels above 1/2 does not reject; in general it can only fire if some pixel exceeds 1/2 in absolute value or the absolute values average more than 0.045.", "quantifier": "all finite stamps of any shape, all catalogues of local maxima", "why_tests_cant": "the tests run the whole extraction on a few simulated frames and do not look at which check rejected a star; the redundancy of a check is a statement about all stamps", "anchors": ["properimage/single_image.py:SingleImage.stamps_pos"]}
{"id": "C98", "title": "Normalisation of the PSF basis elements", "statement": "When kl_basis is first read with at most 250 stars and no smoothing, elements are plain combinations of the stamps (only a single element is divided by its sum). With more than 250 stars each element is the combination divided by its sum, lowered by the absolute value of its least pixel and divided by its sum again: it has unit sum; if the combination has one sign the least pixel becomes 0; otherwise negative pixels are made more negative, the least one at least doubling, and if the second sum is negative the element is inverted. Smoothed elements have unit sum too. A single stamp with NaN or infinite pixels makes reading kl_basis raise a ValueError, if the library refuses a matrix that is not finite. With finite stamps, as many eigenvalues as stars, not all of them zero, and an information loss of at least zero, the basis is always made, for any number of stars, with the number of elements the information loss asks for. The coefficient fields are not rescaled, so a PSF put together with a star's own coefficients then adds up to the sum of the coefficients instead of one.", "quantifier": "all sets of stamps, eigenvectors and shapes; all states in which nothing has been measured yet", "why_tests_cant": "no test image has more than 250 stars, and whether an element has a negative pixel depends on the field", "anchors": ["properimage/single_image.py:SingleImage._setup_kl_basis", "properimage/single_image.py:SingleImage.kl_basis", "properimage/single_image.py:SingleImage.cov_matrix"]}
{"id": "C99", "title": "A lone masked pixel is filled with a fixed weighted average of its window, short of the true value at the borders", "statement": "For an image whose mask contains one single pixel, interped returns at that pixel exactly 1/99 of the weighted sum of the other 120 pixels of the 11 by 11 window round it, with weight 1 inside, 1/2 on the outermost rows and columns and 1/4 on the four window corners, where pixels outside of the image count as zeros and the weights are NOT renormalised for them. Hence in an image that is an affine plane the pixel gets its exact value when it lies at least 5 pixels from every border, while in a constant image of at least 6 by 6 pixels a masked corner pixel gets only 13/44 of the constant.", "quantifier": "all image sizes, all pixel values, all positions of the masked pixel, all planes", "why_tests_cant": "a test interpolates one pixel in the middle of one image; it cannot show the weights for every position nor the loss at the borders", "anchors": ["properimage/single_image.py:SingleImage.interped"]}
{"id": "C100", "title": "coadd weighs a remembered matched filter with a new zero point", "statement": "For each image coadd assigns the new zero point and makes sure the PSF is the one for the inf_loss of this call. What the image then contributes to the weights is made of the new zero point and this PSF. What it contributes to the summed matched filter is the s_hat_comp remembered by the object if that was computed for the same inf_loss, with the zero point of that time; otherwise it is computed with the new zero point and this PSF. Hence a second coadd of the same image objects with the same inf_loss (for instance together with other images) combines the old matched filters, scaled by the old zero points, with weights of the new ones.", "quantifier": "all image objects in a state reachable through the API, all zero points, all inf_loss, all library behaviours", "why_tests_cant": "a test coadds fresh images once; the mismatch needs two coadds sharing an image and differing zero points", "anchors": ["properimage/operations.py:coadd", "properimage/operations.py:process_chunk_joblib", "properimage/single_image.py:SingleImage.s_hat_comp", "properimage/single_image.py:SingleImage.psf_hat_sqnorm"]}
{"id": "C101", "title": "coadd with align=True: AttributeError on an unmeasured first image, and rejected stars come back", "statement": "coadd(align=True) calls update_sources() on every image of the aligned list: it raises AttributeError if best_sources of one of them was never evaluated, leaving the later ones untouched, and otherwise updates them in turn. On an image whose stamps have not been extracted the first update detects the sources, extracts the stamps and keeps only the accepted stars in best_sources when there are at least 15 of them. The next update of the unchanged image puts all the detected stars, also the rejected ones, back into best_sources, while n_sources and stamps_pos stay as they were; so two equal calls estimate the transparencies from different catalogues.", "quantifier": "all images, all catalogues, all detection results that do not depend on the buffer size of sep", "why_tests_cant": "it needs a sequence of calls on the same objects and a catalogue with at least 15 accepted and some rejected stars", "anchors": ["properimage/operations.py:coadd", "properimage/single_image.py:SingleImage.update_sources", "properimage/single_image.py:SingleImage.n_sources", "properimage/single_image.py:SingleImage.stamps_pos"]}
{"id": "C102", "title": "An overflow of sep's pixel buffer changes the detection threshold of later calls", "statement": "When the pixels above 8 times the noise do not fit into the pixel buffer of sep, best_sources is made with the threshold of 35 times the noise, and the buffer stays enlarged to 3600000. Calling update_sources() on the unchanged image then gives the catalogue of the threshold 8; and every other image of the process that fits into the enlarged buffer is searched at 8 times the noise. So best_sources depends on which images were processed before.", "quantifier": "all images with enough sources at both thresholds, all buffer needs up to 3600000", "why_tests_cant": "one needs images large enough to overflow the buffer, and to compare different orders of processing", "anchors": ["properimage/single_image.py:SingleImage.best_sources", "properimage/single_image.py:SingleImage.update_sources"]}
{"id": "C103", "title": "sim_varpsf gives the stars linearly decreasing fluxes in order of drawing", "statement": "Each quadrant of sim_varpsf, with or without a seed, shows nstars//4 stars at the drawn positions: star number k of n has flux 10000 - 9900 k/(n-1), a single star has flux 100, and of stars drawn on the same pixel only the last one is there. The quadrant is this field convolved with its PSF, plus standard normal noise scaled by its brightest pixel over SN, plus 200. Without a seed the noise continues the random sequence that the positions were drawn from. For an angle of 0, a non-negative SN and more than 30 pixels a side the quadrant can always be made. So it can for every other angle above -180 degrees if there is room between the margins (or no star) and no field convolved with the rotated PSF is negative throughout, which holds for a rotated PSF without negative pixels; it is then NaN throughout exactly if the rotated PSF sums to zero.", "quantifier": "all numbers of stars, angles, sizes, seeds and random generators", "why_tests_cant": "a test looks at one random frame and cannot separate the fluxes from noise", "anchors": ["properimage/simtools.py:sim_varpsf", "properimage/simtools.py:delta_point", "properimage/simtools.py:image"]}
{"id": "C104", "title": "The noise in subtract's difference image is white with unit variance", "statement": "With beta=False and shift=False, and with photometry, PSFs and noise levels held fixed, D is a linear function of the pixels of the two images. If the pixels of the new image have independent errors of standard deviation new.var and those of the reference independent errors of ref.var, then every pixel of D has variance one and no two pixels of D are correlated, whatever the PSFs and the zero points.", "quantifier": "all pairs of images of one shape, all PSFs and zero points with a non-zero noise norm, all pairs of pixels", "why_tests_cant": "variance and correlation are averages over noise realisations, and there are as many pairs as pixels squared", "anchors": ["properimage/operations.py:subtract"]}
{"id": "C105", "title": "The noise in a coadd is white with variance one over the number of pixels", "statement": "With zero points, PSFs and noise levels held fixed, the coadd of images with a constant PSF is a linear function of their pixels. If the pixels of each image have independent errors of the image's noise, every pixel of R has variance 1/(height*width), and no two pixels are correlated, for any number of processes, provided the weighted PSF power vanishes at no frequency. The variance is not one, because the final inverse transform is not the orthonormal one.", "quantifier": "all lists of images of one shape with constant PSFs, all admissible numbers of processes, all pairs of pixels", "why_tests_cant": "variance and correlation are averages over noise realisations, and there are as many pairs as pixels squared", "anchors": ["properimage/operations.py:coadd", "properimage/single_image.py:SingleImage.s_hat_comp", "properimage/single_image.py:SingleImage.psf_hat_sqnorm"]}
{"id": "C106", "title": "A star in one image appears in the difference image as the returned PSF with a known flux", "statement": "With beta=False and shift=False, let b be the ratio of the zero points. A star of flux c with the new image's PSF, drawn with the corner of its stamp at (p, q) into the new image, adds to the real part of D the image P that subtract returns, times c/sqrt(b^2 ref.var^2 + new.var^2), rolled by (p, q) less the centre of mass of the reference's PSF (if that is a whole pixel). A star of flux c in the reference adds P times -b c/sqrt(b^2 ref.var^2 + new.var^2), rolled by its corner less the centre of mass of the new image's PSF. For PSFs of unit sum the total of D is the total of the new image less b times that of the reference, divided by sqrt(b^2 ref.var^2 + new.var^2), wherever the centres are.", "quantifier": "all pairs of images, PSFs whose transforms have no coefficient with vanishing real part, all fluxes and positions", "why_tests_cant": "the injected star has to be compared in every pixel and at every position and flux", "anchors": ["properimage/operations.py:subtract"]}
{"id": "C107", "title": "A constant star leaves no trace in the difference image", "statement": "With beta=False and shift=False, a star drawn with each image's own PSF into both images at the same place, with fluxes in the ratio of the zero points, does not change D at all. The place of a star is the corner of its stamp plus the centre of mass of the image's PSF; the two PSFs may be different.", "quantifier": "all pairs of images, PSFs whose transforms have no coefficient with vanishing real part, all fluxes and positions, including fractional centres", "why_tests_cant": "one can only inject stars at a few positions, and residuals are compared with a tolerance", "anchors": ["properimage/operations.py:subtract"]}
{"id": "C108", "title": "A star common to all images appears in the coadd as the returned PSF with a known flux", "statement": "Draw into every image a star with that image's PSF, a flux of c times the image's zero point, and its centre at a common pixel (X, Y). The coadd R changes by the PSF image that coadd returns, rolled by (X, Y) less the stamp size, times c times the square root of the weighted PSF power at frequency zero. So the returned PSF is the PSF of R, but displaced by the stamp size.", "quantifier": "all lists of images of one shape with constant PSFs, all fluxes and positions, all admissible numbers of processes", "why_tests_cant": "the injected star has to be compared in every pixel and at every position and flux", "anchors": ["properimage/operations.py:coadd", "properimage/single_image.py:SingleImage.s_hat_comp"]}
{"id": "C109", "title": "Normalisation of an image with a position-dependent PSF", "statement": "The normalisation image (normal_image) has the shape of the image and is, in each pixel, the sum over the PSF basis of the coefficient field around the pixel weighted with the basis element turned by half a turn about its middle pixel (height//2, width//2); outside the image the field is continued by reflection, the edge pixel being repeated. For a field that varies linearly, away from the edges, the result is the total of the element times the value of the field at the pixel moved by the distance from the element's centre of mass to its middle pixel; so it is exactly total times field for an element centred on its middle pixel. The centre of mass used is the unique point about which the first moments vanish.", "quantifier": "all images, bases with elements up to twice the image in size, all coefficient fields, all pixels", "why_tests_cant": "the edge convention and the half-turn show only for asymmetric elements and varying fields, in every pixel", "anchors": ["properimage/single_image.py:SingleImage.normal_image", "properimage/single_image.py:SingleImage.s_hat_comp"]}
{"id": "C110", "title": "The matched filter does not depend on the scale of the PSF basis, but the PSF power does", "statement": "Multiplying each basis element by any non-zero factor and dividing its coefficient field by it describes the same PSF everywhere. The normalisation image and the matched-filter image do not change. The PSF power (psf_hat_sqnorm), which coadd divides by, is multiplied by the square of a common factor.", "quantifier": "all images, bases, coefficient fields, all non-zero factors (one for each element)", "why_tests_cant": "an invariance under every rescaling; the two quantities are computed from the same basis but only one is invariant", "anchors": ["properimage/single_image.py:SingleImage.s_hat_comp", "properimage/single_image.py:SingleImage.normal_image", "properimage/single_image.py:SingleImage.psf_hat_sqnorm"]}
{"id": "C111", "title": "The scale fit of subtract minimises the difference image minus the background, not the difference image", "statement": "With iterative=True and shift=False (or the last scalar fit) the function that subtract hands to the bounded minimiser is, for every trial scale b and any images and PSFs, the sum over the pixels that are not masked of |D - gamma/sigma|, where D is the difference image subtract would return for that scale, gamma the background difference and sigma the noise normalisation at that scale. The least-squares fit of the scale minimises the same sum. In the shift fits, with and without the scale, the residual is the pixel of D for that scale and shift minus the rolled background term, and what is minimised is the mean of its size over the pixels at least 100 away from the borders, masked pixels counting as zero. When both PSFs add up to one, a constant sky s in the reference and t in the new image adds (t - b s)/sigma to D while the background term takes away (t - s)/sigma, so (1 - b) s / sigma remains: the residual is free of the sky only at b = 1. For two images holding sky alone the cost is |1 - b| |s| / sigma for each unmasked pixel, so a perfect minimiser over bounds containing 1 returns the scale 1 whatever the two levels and the flux zero points are. When the new image is B times the reference with the same PSF, D at scale B vanishes, but the cost there is the sum of |gamma|/sigma and not zero.", "quantifier": "all image sizes, images, masks, PSFs, variances, backgrounds, trial scales and shifts; all minimisers that reach the minimum of this cost", "why_tests_cant": "A run shows one fitted scale and not the function it minimises; that the sky enters the cost with the wrong weight shows as a bias that depends on the sky level and on the true scale together.", "anchors": ["properimage/operations.py:subtract"]}
{"id": "C112", "title": "plot_R draws the logarithm of the real part, and refuses some complex images", "statement": "plot_R raises IndexError exactly on an array without pixels, touching no figure. Given a non-empty array, plot_R raises TypeError exactly when its elements are complex64, or complex128 in a masked array whose pixel [0, 0] is masked (the test for complex numbers looks at that one element); an empty figure is then left open if none was. In all other cases it draws at every pixel the base-10 logarithm of the real part, leaves blank every pixel whose real part is zero or negative (half of a sky-subtracted image), and draws a masked pixel with the logarithm of the fill value, which is 20 for the default. It returns nothing, although an axes object is documented, and unless nbook is set it closes the current figure with everything that was drawn in it before.", "quantifier": "all arrays of floats or complex numbers of any size, with or without a mask and fill value; all lists of open figures; nbook true or false", "why_tests_cant": "The existing tests draw one real array; which of the element types and masks fail depends on a single pixel.", "anchors": ["properimage/plot.py:plot_R"]}
{"id": "C113", "title": "The colours of plot_S are spoilt by masked pixels once about one in eight is masked, and the axes returned do not show the image", "statement": "plot_S replaces masked pixels by the fill value M before it computes its colour limits (clipped median plus and minus four clipped standard deviations). Let all unmasked pixels lie between lo and hi and M be farther than 21 (hi - lo) above hi (it is 1e20 by default). If at least a seventh but fewer than half of the pixels are masked, clipping removes nothing, the limits enclose M and lo, the scale spans at least 8/3 (M - lo), and two unmasked pixels differ by at most 3 (hi - lo) / (8 (M - lo)) of the scale: they have the same colour. If at most a tenth is masked, the limits are computed from unmasked pixels only and lie within four times (hi - lo) of these. Each unmasked pixel is drawn with its value, each masked one with M. With nbook the axes returned hold the image on top of what was there. Without nbook, the current figure is closed with all it held, and the axes returned are those of the figure open before, or of a new empty figure which stays open: they never show the image.", "quantifier": "all arrays of floats of any size, all masks, all fill values and value ranges subject to the stated bounds; all lists of open figures", "why_tests_cant": "Whether the clipping removes the fill value depends on the fraction of masked pixels; one masked example shows one side of the threshold.", "anchors": ["properimage/plot.py:plot_S"]}
{"id": "C114", "title": "store_fits writes one file per image number, and its files are read back only by path", "statement": "store_fits writes the array to a file whose name is made of the directory, the text image00, the image number and .fits, and returns that path. In one directory two numbers give the same file exactly when they are equal, a second call with the same number replaces the file, and no other file is touched; the names do not sort in the order of the numbers (image 10 comes before image 2). From a time whose ISO text is a date of ten characters, a separator and a time of day of at most thirteen characters the header gets exactly this date and time, the exposure time, the Julian date and the zero point; a number is taken for a Julian date in UTC. SingleImage of the returned path has exactly the stored pixels; every pixel that is NaN, infinite, below -50 or above 65000 is masked, and if there is no such pixel then nothing is masked. SingleImage of the opened HDU list of the same file raises IndexError, since the file announces extensions and has none.", "quantifier": "all arrays, times, exposure times, numbers, zero points and directories; all contents of the file system before the call", "why_tests_cant": "The round trip passes through two modules and the FITS conventions of astropy; the simulation tests never read their files back.", "anchors": ["properimage/simtools.py:store_fits", "properimage/single_image.py:SingleImage.mask"]}
{"id": "C115", "title": "The matched filter of an image depends on whether its transform was read before its stars were measured", "statement": "For an image whose matched filter has not been computed yet: after reading interped, s_hat_comp is computed from the interpolated image as the extraction of the stars left it (the extraction changes the image around every star). After reading interped_hat instead, with a PSF that does not vary over the image, s_hat_comp is computed with the same PSF, zero point and normalisation but from the image before the extraction, because the transform is remembered. With a PSF that varies there is no difference. A worked image shows two different values.", "quantifier": "all images, libraries and states of the object in which the matched filter and the transform have not been computed", "why_tests_cant": "The two orders give the same PSF and images that differ by a local background; a test that reads attributes in one order cannot see the other.", "anchors": ["properimage/single_image.py:SingleImage.s_hat_comp", "properimage/single_image.py:SingleImage.interped_hat", "properimage/single_image.py:SingleImage.stamps_pos"]}
{"id": "C116", "title": "No linear statistic of the images finds a common star better than the coadd", "statement": "Take a star that all images show at one pixel, with fluxes in proportion to their zero points, and from coadd the image R and the PSF image. Centre the returned PSF on the star (undoing the displacement by the stamp size) and sum R against its conjugate. This statistic has a positive noise and the largest squared ratio of response to noise among all weighted sums of all pixels of all images, when the pixels carry independent noise of the estimated variances. So coadding loses none of the information about such stars.", "quantifier": "all lists of images of one shape with constant PSFs and non-zero noise, all star positions, all complex weights, all admissible numbers of processes", "why_tests_cant": "The comparison is with every possible set of weights on every pixel of every image.", "anchors": ["properimage/operations.py:coadd", "properimage/single_image.py:SingleImage.s_hat_comp"]}
{"id": "C117", "title": "No linear statistic that ignores constant stars finds a new star better than the difference image", "statement": "Centre the PSF image that subtract returns on a star at a sky position (X, Y) and sum D against it. This statistic does not respond to any constant star (one at the same sky position in both images whose flux in the new image is b times that in the reference, b being the ratio of the zero points), has a positive noise, and has the largest squared ratio of response, to a star in the new image only, to noise among all weighted sums of the pixels of the two images that ignore all constant stars. Without fits, for PSFs whose centres are whole pixels and whose coefficients are not changed by the guard against zeros.", "quantifier": "all pairs of images of one shape, all PSFs with the stated properties, all noise levels not both zero, all zero points with non-zero ratio, all sky positions, all complex weights on the pixels of both images", "why_tests_cant": "The comparison is with every possible set of weights on every pixel of both images.", "anchors": ["properimage/operations.py:subtract"]}
{"id": "C118", "title": "What a stored star stamp contains", "statement": "A stored stamp of finite pixels consists of the pixels of the enlarged window around the star (background rms outside of the image) less the median of those below their 70th percentile, divided by the sum of these differences; its pixels add up to one. Adding |minimum| before has no effect. Two frames of a field that differ by exposure (x c > 0) and sky brightness (+ d) therefore give the same stamp of a star inside the frame, whatever their noise, if both are stored. A stamp with pixels that are NaN or infinite is stored only without strict picking, and only if no pixel lies below the 70th percentile (a flat frame shows this), the window holds a NaN, or the differences add up to zero.", "quantifier": "all images, star positions, stamp sizes and noise levels; all exposures and sky levels", "why_tests_cant": "The tests check only the number and shape of stamps; the independence from sky and exposure compares two frames for every field.", "anchors": ["properimage/single_image.py:SingleImage.stamps_pos"]}
{"id": "C119", "title": "The score image's noise is not one: it is divided by the number of pixels and scaled by a displaced estimate", "statement": "Suppose the pixels of both images are independent and each has the variance 'pixel + 1' that subtract itself uses for the denominator of S. Then S is a linear function of the pixels (denominator held fixed), and the variance of S at (i, j) is 1 / (F_ref^2 * number of pixels) times the ratio of the noise that the matched filter collects around (i, j) to the noise the denominator was given. The denominator's kernels are not recentred whereas the filter is, so its noise is collected around a pixel displaced by the centre of the PSF stamps: for PSFs of one pixel in the middle of a 1x3 stamp the variance of S[j] is (N[j] + R[j] + 2) / (N[j+1] + R[j+1] + 2) / 3. It is 1 / (F_ref^2 * number of pixels) only where the two agree. Without fits, for PSF and score centres that differ by whole pixels.", "quantifier": "all pairs of images of one shape with pixels >= -1, all PSFs, noise estimates not both zero, zero points with non-zero ratio, all pixels; displacement by whole pixels", "why_tests_cant": "A variance is a statement about all realisations of the noise, and the tests do not look at the values of S.", "anchors": ["properimage/operations.py:subtract"]}
{"id": "C120", "title": "A coadd of images with Gaussian PSFs is normalised with another PSF than it is filtered with", "statement": "coadd of SingleImageGaussPSF objects filters each image with its rendered Gaussian but normalises with the basis measured from its stars. R is a linear function of the pixels. The power of its noise at a frequency is the power of the Gaussians there (sum of F^2/sigma^2 |G|^2) divided by that of the bases (sum of F^2/sigma^2 sum |Q|^2) and by the square of the number of pixels; so the noise of R is white exactly if the two powers are proportional over all frequencies. A star with the Gaussian's profile appears in R with the transform Gaussian power / sqrt(basis power), whereas the returned PSF has the transform sqrt(basis power): the star has the shape of the returned PSF exactly if the two powers are proportional. A Gaussian of one pixel with a measured basis 1:2:1 gives noise that is not white and stars that do not have the returned shape.", "quantifier": "all numbers of images >= 1, all images of one shape, all rendered Gaussians and bases, zero points, non-zero noise estimates, numbers of processes; basis power non-zero at every frequency for the two equivalences", "why_tests_cant": "The tests compare neither the noise nor the shape of stars in a coadd with the returned PSF, and the equality would be needed for all noise realisations.", "anchors": ["properimage/single_image.py:SingleImageGaussPSF.get_variable_psf", "properimage/single_image.py:SingleImage.psf_hat_sqnorm", "properimage/operations.py:coadd"]}
{"id": "C121", "title": "Assigning data or mask to an existing image: stale background, lost masks, and a mask that eats the image", "statement": "For any sequence of assignments to data and mask and readings of best_sources, update_sources() and interped: the background stays that of the first pixels; interped, once read, stays that of the pixels of that moment; best_sources is that of the first pixels when the image was built without stamp_shape, otherwise that of the pixels at its first reading, until update_sources(). An array assigned to data is cropped and multiplied by the original gain and nothing in it is masked, not even extreme values. Assigning an object of an unsupported class raises nothing: the old pixels are cropped and multiplied by the gain once more. Setting mask to None on an image built from an array brings back the pixels of that array, whatever was assigned since. img.mask = img.mask unmasks nothing and leaves the mask as it is exactly if no unmasked pixel has three masked ones in its 3x3 window; where three pixels side by side are masked, n such assignments mask everything up to 3n rows above and below them.", "quantifier": "all images that can be constructed, all sequences of operations, all assigned arrays and masks, all gains and crops (no border detection for the statements on assigned pixels)", "why_tests_cant": "The tests never assign to an attribute of an image after building it; the statements are on all histories.", "anchors": ["properimage/single_image.py:SingleImage.data", "properimage/single_image.py:SingleImage.mask", "properimage/single_image.py:SingleImage._bkg", "properimage/single_image.py:SingleImage.best_sources", "properimage/single_image.py:SingleImage.interped"]}
{"id": "C122", "title": "What a star adds to subtract's score image", "statement": "Without the fits, a star drawn into the new image with its PSF changes the returned score S at every pixel by flux times the zero-point ratio, over (the reference's zero point, the sum of the squared noises with the reference's scaled by the ratio, and the square root of the number of pixels), times the autocorrelation of the returned P around the pixel where the star's copy of P in D has its centre, over the noise the score allows for at that pixel. So, in units of that noise, what a star of positive flux adds (with a positive ratio) is largest at that pixel, where it is proportional to the sum of the squares of P. A star drawn into the reference takes the same away, times the ratio once more.", "quantifier": "all pairs of images of a common size, all PSFs whose coefficients have no vanishing real part and which are centred whole pixels away from the centre used for P, all zero points and noise levels, all places and fluxes; denominator of the score held fixed", "why_tests_cant": "The tests only check that subtract returns; a filter displaced by some pixels or conjugated wrongly still gives an image that looks like a score.", "anchors": ["properimage/operations.py:subtract"]}
{"id": "C123", "title": "Transposing the images in subtract", "statement": "If rows and columns are exchanged in both images (pixels, masks, PSFs and backgrounds), subtract without the shift fit returns D, P, S and the mask with rows and columns exchanged, whether the scale is fitted or not, or raises the same error. With the shift fit this symmetry is lost: the background in the residual that is minimised is always rolled along the rows, and there are images for which the residual of the transposed problem at the transposed shift is not the transposed residual.", "quantifier": "all images of any size, all PSFs, masks, backgrounds, zero points and optimisers that see only the cost; the highest pixel of P (used only when its centre of mass is far off) has to be unique", "why_tests_cant": "A test would have to compare two runs, and only the fit of the shift, whose result hides in noise, treats the axes differently.", "anchors": ["properimage/operations.py:subtract"]}
{"id": "C124", "title": "Moving both images in subtract", "statement": "If both images (pixels, masks, backgrounds) are rolled cyclically by the same whole number of pixels in each direction, subtract without the shift fit returns D, S and the mask rolled by as much and the same P, whether the scale is fitted or not, or raises the same error.", "quantifier": "all pairs of images of a common size, all masks, PSFs, backgrounds, zero points and shifts", "why_tests_cant": "Tests use one position; an offset that depends on the position or a wrong treatment of the border shows only when two positions are compared.", "anchors": ["properimage/operations.py:subtract"]}
{"id": "C125", "title": "The unit of the counts in subtract", "statement": "If both images are measured in another unit, so that pixels, backgrounds and noise levels are multiplied by a positive constant, subtract without the shift fit returns the same D, P and mask (or raises the same error), fitted scale included. Its score S does depend on the unit: it is the constant times the square root of the ratio of the noise the score allows for before and after, where the new counts enter that noise but nothing else in it changes. Where there are no counts S is multiplied by the constant itself.", "quantifier": "all pairs of images, all masks, PSFs, backgrounds, zero points and positive constants; the closed form of S for images of a common size, non-zero zero points, pixels where the noise is positive, and without the fit of the scale", "why_tests_cant": "S is called a significance, which would not depend on the unit; tests look at one image in one unit.", "anchors": ["properimage/operations.py:subtract"]}
{"id": "C126", "title": "Transposing, moving and rescaling the images in coadd", "statement": "For images with one PSF each, exchanging rows and columns in all images (pixels, PSF and its centre, mask) exchanges them in the coadd, in its PSF and in its mask. Rolling all images by the same number of pixels rolls the coadd and its mask by as much and leaves its PSF. Measuring each image in a unit of its own (pixels, noise and zero point times any non-zero constant that may differ from image to image), and multiplying all zero points by one positive constant besides, changes nothing. All this holds whatever the numbers of workers in the two calls.", "quantifier": "all numbers of images, all images of a common size, PSFs with any centres, masks, zero points and noise levels, all shifts and constants, worker counts up to the number of images (and up to 2^25)", "why_tests_cant": "Tests coadd one set of images in one orientation, place and unit.", "anchors": ["properimage/operations.py:coadd", "properimage/single_image.py:SingleImage.s_hat_comp", "properimage/single_image.py:SingleImage.psf_hat_sqnorm"]}
{"id": "C127", "title": "Photometry and subtraction of a brighter copy", "statement": "Give the measured photometry of two exposures to the subtraction, the new exposure being the reference r > 1 times as bright (catalogue fluxes and pixels). With n stars in the catalogue, S the sum of their magnitudes and g = 2.5 log10 r, the zero points are (S+g)/(n+2) and (S-(n+1)g)/(n+2). So, for fluxes between 0 and 10^8, the scale used is below one whereas the true one is r: the difference image is a fixed image times (r minus that scale), and is zero only when the reference is.", "quantifier": "all catalogues with distinct positions and fluxes in (0, 10^8), all ratios r > 1, all images, PSFs, masks and noise levels, every nearest-neighbour query and least-squares solver meeting their contracts, with and without iterated PSF; without fits", "why_tests_cant": "Tests subtract images of the same brightness, or look at the result by eye; the zero points are magnitudes where a flux ratio is needed.", "anchors": ["properimage/operations.py:subtract", "properimage/utils.py:transparency"]}
{"id": "C128", "title": "Photometry and coaddition of a brighter copy", "statement": "Coadd an exposure and one r > 1 times as bright (pixels and noise) with the measured zero points. The coadd is that of the first exposure alone times a factor below (r+1)/sqrt(r^2+1), which is at most 1 + 1/r; with zero points in the true ratio 1:r it would be the square root of two. For any zero points z0, z1 the factor is (z0+z1/r)/sqrt(z0^2+(z1/r)^2).", "quantifier": "all catalogues with distinct positions and fluxes in (0, 10^8), all r > 1, all images with one PSF, masks and positive noise levels, one or two workers, every nearest-neighbour query and least-squares solver meeting their contracts", "why_tests_cant": "Tests coadd exposures of the same length and never compare the signal-to-noise with the optimum.", "anchors": ["properimage/operations.py:coadd", "properimage/utils.py:transparency", "properimage/single_image.py:SingleImage.s_hat_comp"]}
{"id": "C129", "title": "Copies of one exposure in the photometry and in coadd", "statement": "Exposures with one and the same catalogue get equal zero points whatever the magnitudes exactly if there are at most two of them or one star. For three or more, the zero points depend on the order of the stars: with three copies and two stars they differ by the magnitude difference of the stars. The coadd of p copies with the measured zero points is that of one of them times a factor of at most sqrt(p), equal to it exactly if the magnitudes sum to a positive number S and every stretch of p-fold repeated magnitudes that is taken for one image sums to S as well; with stars of 100 and 10000 counts three copies get 5, 7.5 and 2.5 and the coadd falls short. Subtracting a copy with its measured zero point leaves exactly zero if S is not zero.", "quantifier": "all catalogues with distinct positions, all numbers of copies, all images with one PSF, masks, positive noise levels, worker counts up to the number of images, every nearest-neighbour query and least-squares solver meeting their contracts", "why_tests_cant": "Tests coadd simulated images and only look at shapes; equal exposures with unequal weights still look like a coadd.", "anchors": ["properimage/operations.py:coadd", "properimage/operations.py:subtract", "properimage/utils.py:transparency"]}
{"id": "C130", "title": "Bad pixels of raw arrays in the results", "statement": "Give arrays to subtract or coadd and call a pixel bad if it is NaN, infinite, above 65000 or below -50. In the mask of the result every pixel that is bad in one of the arrays is marked, and every marked pixel has a bad one, in one of the arrays, within seven pixels along both axes. The interpolated image that goes into the transforms is a number everywhere, and is the array minus the background wherever no bad pixel is within seven pixels. What a bad pixel holds makes no difference to the mask nor to the interpolated image.", "quantifier": "all arrays of a common shape, all backgrounds, all cosmic-ray detectors, all worker counts up to the number of images; for the remaining part of the constructor not raising, without alignment", "why_tests_cant": "Tests put a few bad pixels in one place and look at one image's mask, not at what reaches the result.", "anchors": ["properimage/operations.py:subtract", "properimage/operations.py:coadd", "properimage/single_image.py:SingleImage.mask", "properimage/single_image.py:SingleImage.interped"]}
{"id": "C131", "title": "Where the star sits in the PSF stamp", "statement": "Let the PSF of either image (or both) be stored in a larger stamp, with empty rows and columns added on any side, so that the star sits elsewhere in the stamp. Provided no Fourier coefficient of the PSF has zero real part, subtract fits the same scale and shift for every choice of switches and returns exactly the same difference image and mask, or raises the same error; the PSF image P it returns is rolled by the sum of the two displacements. The score S is not invariant: its numerator follows up to what the measured centre of P misses, but the two noise maps under the square root are displaced, each by the displacement of its own stamp, and not moved back, so that the score of a pixel is divided by the noise of another pixel. coadd with constant PSFs returns identical results for any placement.", "quantifier": "every pair of images of a common shape, every displacement of the two stars, all switches and every optimiser; for coadd every list of images", "why_tests_cant": "a test fixes one stamp layout; that S silently depends on it shows only when the same scene is run with two layouts and a bright, noisy source", "anchors": ["properimage/operations.py:subtract", "properimage/operations.py:coadd"]}
{"id": "C132", "title": "The normalisation of the PSFs in subtract", "statement": "Let the PSF arrays of the reference and of the new image be multiplied by positive factors p and q, and let no Fourier coefficient of either PSF have zero real part. Without a fit, subtract then returns what it would return for the original PSFs with the two zero points multiplied by p and q: the same difference image and mask, or the same error; P is multiplied by a known constant and S by p. With a common factor (p = q) and a positive fitted scale, for every choice of switches, the difference image, the score image and the mask do not change at all and P is multiplied by p. So two identical images whose PSFs are given with different normalisations do not cancel: with the second PSF doubled, the difference of two copies of u is -u/sqrt 5.", "quantifier": "every pair of images of a common shape, every PSF, all positive factors and zero points, every optimiser", "why_tests_cant": "tests give both images PSFs normalised in the same way, so that an unequal normalisation, which acts like a wrong zero point, is never seen", "anchors": ["properimage/operations.py:subtract"]}
{"id": "C133", "title": "The local maxima of a rescaled, transposed, moved, mirrored or offset score image", "statement": "find_S_local_maxima, with ndimage.label meeting its documentation and clipped statistics that follow the image: a score image multiplied by a positive factor has exactly the same list; the transposed image has the same list with the coordinates exchanged, in some order, and returns exactly if the original does; an image placed in a larger one in which nothing else is detected has the positions moved along and the same significances (for a detection level that is not negative). The list is not invariant under the other harmless changes. In the image upside down the positions are mirrored, but the significance of an entry is read at its position rounded up instead of down, so a star on two pixels 3 and 5 has significance 3 in one orientation and 5 in the other. A constant added to the image (and so to its clipped mean) leaves the regions as they are but moves every position relative to the mean pixel of its region by the factor n/(n + cN), with n the sum and N the number of its pixels, and whenever something is detected there is a constant for which the call raises.", "quantifier": "every score image, every clipped mean and deviation, every threshold, every labelling that meets the documentation", "why_tests_cant": "each test looks at one image in one orientation with one zero level; no pair of images is compared", "anchors": ["properimage/utils.py:find_S_local_maxima"]}
{"id": "C134", "title": "The masks when aligned exposures are aligned again", "statement": "Let the exposures be aligned already, so that astroalign.register returns the pixels as they are (with the propagated mask in coadd, with an empty footprint in subtract). In coadd(align=True) on raw arrays the first image has the mask it has without alignment, the bad pixels (not finite, above 65000, below -50) grown seven times; the masks of all the other images are grown fourteen times, and the mask of the result is the union. It therefore depends on the order of the list: with one exposure of k > 0 saturated rows and a clean one, k+7 rows are masked if the damaged exposure comes first and k+14 if it comes second. In subtract(align=True) the mask that the new image had is forgotten: the mask of the result is that of the reference and the grown extreme pixels of the new image, so a new image that is NaN everywhere is fully masked without alignment and not masked at all with it.", "quantifier": "every list of arrays of a common shape, every pair of image objects, every number of saturated rows, all thread counts", "why_tests_cant": "a test would have to compare the masks of one and the same list with and without alignment and in two orders", "anchors": ["properimage/operations.py:coadd", "properimage/operations.py:subtract", "properimage/utils.py:_align_for_coadd"]}
{"id": "C135", "title": "Exchanging images in transparency, subtract and coadd", "statement": "The zero points of two images depend on nothing but the pairs of stars that are each other's nearest within the radius: with n pairs and magnitude sums S and T they are (S-(S+T)/(2+n))/n and (T-(S+T)/(2+n))/n, and 1 and 1 if n is 0. So transparency([B, A]) returns the zero points of transparency([A, B]) in the other order, whatever else the catalogues contain and also when distances tie. Hence subtract without fits, on the zero points it measures, changes the sign of D when reference and new image are exchanged (if the ratio of the zero points is positive), and coadd of two images on measured zero points does not depend on the order. With three images this ends: for exposures with the same stars, taken under the same conditions, exchanging the first two changes R by (z0-z1)/sqrt(z0^2+z1^2+z2^2) times the difference of what the two exposures give alone, with z0, z1, z2 the zero points by position; for stars of 100 and 10000 counts these are 5, 7.5 and 2.5.", "quantifier": "every two catalogues, all images and PSFs, every nearest-neighbour search, every three exposures with a common catalogue", "why_tests_cant": "the statement compares two runs on all pairs of catalogues; a test sees single pairs and usually copies of one exposure", "anchors": ["properimage/utils.py:transparency", "properimage/operations.py:subtract", "properimage/operations.py:coadd"]}
{"id": "C136", "title": "The sky level in the score image and in the coadd", "statement": "Let the sky be brighter by s in the reference and by t in the new image (all pixels of the interpolated images, the unmasked pixels of the data), PSFs of unit sum, noise levels and zero points as before, b the ratio of the zero points, sigma^2 = var_n^2 + b^2 var_r^2. Then subtract without fits adds (t-bs)/sigma to every pixel of D, leaves P alone, and at each pixel with positive variance V the score becomes (sqrt(V) S + b(t-bs)/(sigma^2 sqrt(hw))) / sqrt(V + v), where v is t times the unmasked part of the squared kernel of the new image plus s times that of the reference. So a brighter sky that matches (t = bs, s >= 0, b > 0) does not show in D and still lowers every score by the factor sqrt(V/(V+v)), strictly where v > 0. The denominator of the score is real, the kernels being real images. In coadd a sky of c_j in exposure j adds one and the same number to every pixel of R, sum(zp_j c_j U_j/var_j^2) / (sqrt(hw) sqrt(sum(zp_j^2 U_j^2/var_j^2))) with U_j the PSF totals, and changes neither P nor the mask; it depends on the size of the frame.", "quantifier": "all images, masks and PSFs of unit sum, every sky level, all lists of exposures", "why_tests_cant": "the constant offsets differ from frame to frame and are removed by eye; a test with an absolute tolerance on one frame size would pass for a wrong power of h*w", "anchors": ["properimage/operations.py:subtract", "properimage/operations.py:coadd", "properimage/single_image.py:s_hat_comp"]}
{"id": "C137", "title": "The same object several times in the list given to coadd", "statement": "coadd writes the measured zero points into the image objects one entry after the other, so an object that stands in the list more than once keeps only the zero point of its last entry: all its entries add the same term, made of that zero point, while objects not in the list are untouched. The zero points themselves are those of separate copies of the exposure, also when the object is the master and even though transparency rewrites the object's catalogue while it goes through the list. One object given p times is therefore not coadded like p copies of it: R is sqrt(p) times the coadd of the object alone if the last zero point is positive and minus that if it is negative. Witnesses with three entries and two stars: the copies get 15/sqrt(87.5) and the object the full sqrt(3); with a fainter and a brighter star the coadd of the object with itself is negative.", "quantifier": "all lists of image objects with any repetitions, all states of the objects, all catalogues with distinct positions, every nearest-neighbour query and minimum-norm solver", "why_tests_cant": "tests build separate objects; a list with one object twice runs without complaint and gives a plausible picture", "anchors": ["properimage/operations.py:coadd", "properimage/utils.py:transparency"]}
{"id": "C138", "title": "What lies under the mask does not reach the results", "statement": "Let two arrays agree except under a mask. The images built of them with that mask (an explicit mask array, or a masked array given alone), for any gain and without border removal and crop, have the same stored mask, which contains the given one, and the same pixels outside of it, whether the hidden values are hot, cold, infinite or NaN. Their interpolated images, the counts with masked pixels set to zero, and so D, P, S and the mask returned by subtract are the same, provided that the background and source finders look only at unmasked pixels. With border removal this fails: the trimming sums raw values, masked or not, and one masked pixel decides how many rows and columns of the image are kept.", "quantifier": "all arrays, masks, gains, and mask-respecting libraries; all options of subtract", "why_tests_cant": "a test fills masked pixels with one value; that no value whatsoever leaks is a statement about all pairs of inputs", "anchors": ["properimage/single_image.py:SingleImage", "properimage/single_image.py:interped", "properimage/operations.py:subtract"]}
{"id": "C139", "title": "How good the truncated PSF basis is, and what inf_loss promises", "statement": "Let x be the star stamps, each with its own mean pixel subtracted if there are at most 250 of them, and as they are if there are more. The eigenvectors kept for k elements give the best approximation of x by k pictures: no other k pictures with any coefficients leave a smaller total squared error. With the number of elements chosen for inf_loss the share of the total left out is at most inf_loss, and no smaller positive number of pictures of any kind would reach that. For the unit-sum stamps themselves (2 to 250 of them, n pixels) the kept elements are within (number of stars)/n of the best approximation. That excess can be nearly everything: for two stamps that are mirror images and differ by as little as one likes, one element is kept for every inf_loss and the stamps are missed by a squared error of 1, while their plain average misses them by 4t^2.", "quantifier": "all stamp sets, eigen-decompositions, numbers of elements, non-negative values of inf_loss, and all competing pictures and coefficients", "why_tests_cant": "optimality is a statement about all competing approximations", "anchors": ["properimage/single_image.py:SingleImage._setup_kl_basis", "properimage/single_image.py:SingleImage.kl_basis", "properimage/single_image.py:SingleImage.cov_matrix", "properimage/single_image.py:SingleImage.eigenv"]}
{"id": "C140", "title": "The PSF model does not depend on the order of the stars", "statement": "Let the same star stamps be given in two orders, with any eigen-decomposition for each. The eigenvalues agree, so for every inf_loss the same number of elements is kept. If the eigenvalues kept are larger than those discarded, the combination of elements and coefficients for each star is the same picture. An element whose eigenvalue occurs once is the same up to its sign, with its coefficients changing sign too, and a PSF of a single element (which is divided by its sum) is the very same picture. If the cut falls between equal eigenvalues this fails: for two equally strong stars and inf_loss = 1/2 the PSF is the stamp of the one or of the other, depending on the eigenvectors the library returns.", "quantifier": "all stamp sets, all reorderings, all eigen-decompositions, all inf_loss", "why_tests_cant": "a statement about all pairs of valid eigen-decompositions; a test sees the one that the installed library returns", "anchors": ["properimage/single_image.py:SingleImage._setup_kl_basis", "properimage/single_image.py:SingleImage.kl_basis", "properimage/single_image.py:SingleImage.eigenv", "properimage/single_image.py:SingleImage.cov_matrix"]}
{"id": "C141", "title": "Order and frame of the star lists, and stars without a counterpart, in transparency", "statement": "For two images whose star lists have no two equal distances, transparency returns the same zero points when the stars of each image are listed in another order, when all positions are shifted or rotated together, and when stars are added that lie two pixels or more from every star of the other image, however bright; the neighbour search may break ties in any way and may be another one. With three images the order of the rows matters: three images with the same two stars get the zero points 5, 15/2, 5/2 if the faint star is listed first and 5, 5/2, 15/2 if the bright one is.", "quantifier": "all pairs of star lists without ties, all reorderings, distance-preserving maps, added stars, and neighbour searches", "why_tests_cant": "metamorphic relation over all inputs; the defect needs three images and hides behind the order in which sources happen to be found", "anchors": ["properimage/utils.py:transparency", "properimage/utils.py:_matching"]}
{"id": "C142", "title": "What find_S_local_maxima can detect, given its clipped statistics", "statement": "find_S_local_maxima with the mean and deviation that three rounds of clipping at three deviations leave. The statistics follow every change of unit and zero level and do not depend on where the pixels are, and every image has them. With threshold t at most the fraction 1 - 27/64 t^2/(1+t^2) of the pixels is above the threshold: with the default threshold at most two thirds, and the list has at most that many entries; in an image of at most five pixels nothing ever is. Stars whose pixels are a fraction f of the image, with values from m to M, while all other pixels lie between lo and hi, leave the statistics to the others if 9((hi-lo)^2 + f (M-lo)^2) < (m-hi)^2, and are then all detected if m > hi + t (hi-lo), each pixel in the region of an entry; in particular, in an image of 33 or more pixels, a single pixel above all others by four times their range. But there are only three rounds: in an empty sky with stars of 256, 64, 16, 4 and 1 the last is not detected, and it is detected if the star of 256 is removed.", "quantifier": "all score images, thresholds, sets of star pixels and value ranges", "why_tests_cant": "bounds over all images; that a bright star elsewhere hides a faint one needs a hierarchy of four brighter stars", "anchors": ["properimage/utils.py:find_S_local_maxima"]}
{"id": "C143", "title": "The difference image and the coadd share the power of the images and lose nothing", "statement": "subtract(ref, new, align=False) without fitted zero point or shift, and coadd of the same two images with the same zero points. If the guard against small PSF frequencies acts on neither image, the sum of the squares of the difference image plus that of the coadd times the number of pixels is exactly the sum of the squares of the two images in units of their noises, whatever the PSFs, noises and zero points (zero point of ref not 0). Two pairs of images with the same PSFs, noises and zero points that have the same difference image and the same coadd are the same pair. With or without the guard, changing pixels of the two images changes the difference image by at most as much: the sum of squares of the change is at most that of the changes of the images in units of their noises, so that an error e in one pixel of the new image moves no pixel of the difference image by more than e in units of the noise of new. For the coadd of any number of images the sum of the squares times the number of pixels is at most the sum of the squares of the images in units of their noises.", "quantifier": "all pairs of images, PSFs, noises, zero points and changes of the pixels; for the coadd bound all numbers of images", "why_tests_cant": "an exact identity between the results of two calls and a bound over all errors", "anchors": ["properimage/operations.py:subtract", "properimage/operations.py:coadd"]}
{"id": "C144", "title": "Half a turn of the images turns the difference image and the coadd, but not the score", "statement": "subtract(ref, new, align=False) without fitted shift, with or without fitted zero point, and coadd with one PSF per image. Turn every array of both images (pixels, mask, background, PSF stamp) by 180 degrees, as np.rot90(a, 2) does. If the stamps are not larger than the images, have a non-zero total and the guard against small frequencies acts on none of them, subtract returns the difference image and the mask turned by 180 degrees (every pixel complex-conjugated) and the PSF of the difference image reflected about the point given by the sizes of the two stamps; where it raises, it raises the same error. The score does not turn: if the centre of the PSF of the difference image turns, its numerator turns about the middle of the image, but the noise of each image is reflected about a point that depends on the size of its stamp, which there is a pair of 1x3 images to show. Coadd returns R and the mask turned by 180 degrees and the same PSF.", "quantifier": "all sizes of image and stamp (even and odd), pixels, masks, backgrounds, PSFs, noises, zero points; for coadd all numbers of images and processes", "why_tests_cant": "a relation between two calls for all inputs, and the place where the code breaks it", "anchors": ["properimage/operations.py:subtract", "properimage/operations.py:coadd"]}
{"id": "C145", "title": "One frequency at which every PSF vanishes makes every pixel of the coadd nan", "statement": "coadd with one PSF per image. If at every frequency at least one image with a non-zero zero point has a PSF with a non-vanishing coefficient, every pixel of the coadd is a number and is the one the exact formula gives. If at a single frequency there is no such image, numpy divides zero by zero there, and every pixel of the returned coadd is nan, while no exception is raised and the mask is as before: unlike subtract, coadd has no guard against small coefficients. The returned PSF is a number everywhere if some image with a non-zero zero point has a PSF with a non-zero total, and nan everywhere otherwise. Stamps with an even number of columns that equal their own left-right mirror image have this defect on every image of even width, for any number of images; a PSF with one pixel that outweighs all others together never has it, and one such image in the list is enough.", "quantifier": "all numbers of images and processes, image sizes, stamps, pixels, masks, zero points and non-zero variances", "why_tests_cant": "a random PSF never has an exact zero, and one image in the list hides it", "anchors": ["properimage/operations.py:coadd"]}
{"id": "C146", "title": "_align_for_diff writes the reference, not the new image", "statement": "The documentation says that the new image is aligned to the reference. astroalign.register(source, target) resamples its first argument, and _align_for_diff passes the reference first. Hence, for every register of that kind, a successful call writes the reference's pixels, resampled to the size of the new image, into the file 'aligned_'+basename(newpath), with the header of the new image and a comment naming the opposite direction; the new image's pixels enter only the search for the transformation, so two new images that need the same one give files with the same pixels. For images that are aligned already the file is a copy of the reference. A mask file with neither one pixel nor as many pixels as the image is refused with MaskError before anything is written; every other existing mask file is accepted; one of another shape with as many pixels is taken over in reading order, silently, and one of one pixel stands for all; every value but zero masks. Without a mask file the pixels that are no numbers are masked. The registration is given the new image with its masked pixels replaced by the median. The registration is repeated only after a ValueError, then with the masked instead of the filled image. A masked array that it returns is written with its mask as a second plane; one without a mask raises TypeError.", "quantifier": "all registrations that resample their first argument, all files, paths and masks", "why_tests_cant": "no test calls the function: the installed astroalign returns pairs, which it cannot write", "anchors": ["properimage/utils.py:_align_for_diff"]}
{"id": "C147", "title": "Options of the plots: defaults, options that leak, and PSF plots that always fail", "statement": "plot.imshow draws every unmasked pixel and leaves masked ones blank, puts row 0 at the bottom unless 'origin' is given, passes all other options on, writes the shape of the image in the title, and makes the current figure 4 by 4 inches exactly if no axes are given. plot.autopsf_coef gives each coefficient field its own colour scale, two clipped standard deviations about the clipped median, each end replaceable by the caller. The dictionary cmap_kw is changed by autopsf and autopsf_coef if it is not empty: the defaults stay in it, so that with one dictionary for both plots the colour bars of the second plot have the length (0.85 or 0.75) of the first. autopsf of an image with a Gaussian PSF never succeeds: with an array of at least two axes (and no contours) the PSF is drawn and then TypeError is raised for the astropy model, with fewer ValueError. For a basis of arrays of one shape what is drawn is one panel per array. With contours, a PSF that is not square is drawn and then TypeError is raised.", "quantifier": "all images, masks, options, bases and axes", "why_tests_cant": "a test has to look at the caller's dictionary after the call, and at two calls in a row", "anchors": ["properimage/plot.py:Plot.imshow", "properimage/plot.py:Plot.autopsf", "properimage/plot.py:Plot.autopsf_coef"]}
{"id": "C148", "title": "The normalisation of the PSFs in coadd", "statement": "coadd with one PSF per image. If the PSF arrays are multiplied by factors, one for each image, coadd returns exactly the image, PSF and mask that it returns for zero points multiplied by these factors. One positive factor for all images changes nothing, a negative one the sign of the coadd only. So PSFs must have equal totals for the images to have the right weights: for PSFs of one pixel of value p the coadd is the sum of the images weighted with p*zp/var^2, over the root of the sum of (p*zp/var)^2 and the root of the number of pixels; of two equally good exposures with the second PSF tripled the second has three times the weight. For position-dependent PSFs, bases multiplied by c with coefficient fields divided by c describe the same PSFs, but the coadd is divided by |c|, while its PSF is the same.", "quantifier": "all numbers of images and processes, image sizes, stamps, factors, pixels, masks, zero points and variances", "why_tests_cant": "a test has to vary a normalisation that describes the same PSF", "anchors": ["properimage/operations.py:coadd", "properimage/single_image.py:SingleImage.s_hat_comp", "properimage/single_image.py:SingleImage.psf_hat_sqnorm"]}
{"id": "C149", "title": "Where fit_gaussian2d starts and what it minimises", "statement": "fit_gaussian2d of an array without pixels raises ValueError. Otherwise the fit starts from a round Gaussian of width one pixel centred at column w/2 and row h/2, as high as the range of the pixels, on a constant equal to the faintest pixel; everywhere it lies between the faintest and the brightest pixel. Unless the array is flat, it reaches the brightest value on a pixel exactly if both sides are even; with odd sides (every default stamp) it is off by half a pixel and four pixels share its largest value, exp(-1/4) of the range. What is minimised is zero exactly for models that agree with every pixel, x counting columns. With a fitter that never returns a model worse than its start, the mean squared residual is at most the squared range of the pixels. A flat stamp is fitted exactly at once: a fitter that stops there reports amplitude zero, both widths one and an angle of 45 degrees, and among up to five stars each such stamp pulls the widths of the PSF towards one pixel. If all stars are fitted by one Gaussian, it is the PSF, with its widths along the same axes. Exchanging rows and columns, or changing units and sky level, carries start and minimum over; reversing the columns carries the minimum over but not the start, which is one column further right.", "quantifier": "all real arrays of any shape, all fitters (with the named contract where one is needed)", "why_tests_cant": "a test sees one fit converge; the start is invisible in it", "anchors": ["properimage/utils.py:fit_gaussian2d", "properimage/single_image.py:SingleImageGaussPSF.get_variable_psf"]}
{"id": "C150", "title": "convol_gal_psf_fft keeps light inside and moves it with even PSFs", "statement": "convol_gal_psf_fft(gal, a) has the shape of gal and replaces each source by its value times a, whose pixel ((h-1)//2, (w-1)//2) comes to lie on the source; all of them add up. If every source is so far from the borders that the whole of a lands inside, the total is the product of the totals; for non-negative arrays it is never more, and for a single source and a positive PSF it is the product exactly if the whole PSF lands inside. With a PSF of unit total that looks the same after half a turn, the centre of light stays if the PSF has an odd number of rows and moves down by half a pixel if it has an even number; the same holds for columns, since exchanging rows and columns of both arrays exchanges them in the result. A PSF that is a single pixel moves the image by its distance from ((h-1)//2, (w-1)//2).", "quantifier": "all real images and PSFs of all shapes, sources anywhere", "why_tests_cant": "a test compares with scipy itself, and never with an even PSF", "anchors": ["properimage/simtools.py:convol_gal_psf_fft", "properimage/simtools.py:image"]}
{"id": "C151", "title": "Which arrays can be made into a SingleImage", "statement": "sep takes C-contiguous arrays in native byte order of five kinds of numbers (single, double, 32-bit integer, byte, bool). The pixels that reach it have been converted to native single precision except when the image is an ndarray, a PrimaryHDU, or an HDUList with EXTEND false, no mask is given and guessmask is on: then they are stored as the caller stored them. So construction gets past the background exactly if the pixels can be loaded, their rows are contiguous once copied, and in the excepted case they are native and of one of the five kinds; otherwise it raises ValueError. An array of 64-bit (or 16-bit) integers is refused, while the same array is accepted with any mask or with guessmask=False; the primary HDU of a file as astropy reads it (big-endian) is refused; a file given by its path is always accepted; a transposed array is refused with or without a mask. The background is estimated from the stored pixels, with the stored mask if and only if it masks anything. repr shows the shape of the stored pixels: for an array without a mask that of the array, whatever the crop.", "quantifier": "all inputs, masks, options, kinds of numbers, byte orders and memory layouts", "why_tests_cant": "the tests build every image from native double precision arrays or from paths", "anchors": ["properimage/single_image.py:SingleImage.data", "properimage/single_image.py:SingleImage.mask", "properimage/single_image.py:SingleImage._bkg", "properimage/single_image.py:SingleImage.background", "properimage/single_image.py:SingleImage.__repr__"]}
{"id": "C152", "title": "The mask of an image is looked for by name", "statement": "attached_to is the path of an image given by its path and the name of the class of any other object. Without a mask (and with guessmask) the mask is looked for in a branch chosen by this name; with a mask or guessmask=False names do not matter. A path that is not called PrimaryHDU, ndarray or HDUList, and an array whose class is not the name of a file in the working directory, are treated according to their kind. A FITS file called ndarray raises TypeError, one called PrimaryHDU raises AttributeError, and one called HDUList raises AttributeError (KeyError if its header has no EXTEND). A masked array takes its mask from the first extension of a file called like its class if there is one, instead of its own mask, and none of its invalid pixels is masked.", "quantifier": "all file systems, file names, class names, files, arrays, masks and options", "why_tests_cant": "tests do not name their files after classes", "anchors": ["properimage/single_image.py:SingleImage.attached_to", "properimage/single_image.py:SingleImage.mask"]}
{"id": "C153", "title": "The PSF between the stars", "statement": "get_variable_psf describes the PSF by basis elements and coefficient fields; consider their combination at a position of the frame (more than one element, no smoothing, at most 250 stars). Pixel by pixel it is a least-squares cubic surface through the values which the kept elements give the stars at that pixel; with all elements kept, through the stars' own pixels. So a PSF whose pixels vary over the frame as cubics is modelled exactly everywhere, if all elements are kept and no cubic other than zero vanishes at all stars (ten stars in a triangle have this property, nine stars never have it). If any values at the stars can be attained by a cubic, the model at a star is what the kept elements make of it (the stamp itself if all are kept). At the stars the values of all least-squares fields agree. If the stars determine a cubic, the field is unique: it does not depend on the order of the stars (if the cut does not fall between equal eigenvalues the whole PSF does not), and moves, turns, mirrors and scales with the frame. If they do not (for example with fewer than ten stars), other fields fit as well and differ from it away from the stars.", "quantifier": "all star positions, stamps, eigen-decompositions, values of inf_loss and frames; every fitter that minimises the sum of squared misfits", "why_tests_cant": "tests look at the shapes of the coefficient fields, not at their values", "anchors": ["properimage/single_image.py:SingleImage.get_variable_psf", "properimage/single_image.py:SingleImage.kl_afields"]}
{"id": "C154", "title": "Coadding in stages", "statement": "Coadd images of one shape group by group, then coadd the results with the PSF image that coadd returned for each (centred at the stamp size used for its group), the square root of the group's weighted PSF power at frequency zero as its zero point and 1/sqrt(h*w) as its noise. If the weighted PSF power of every group is positive at all frequencies, the second stage returns exactly the R, the PSF image and the mask that coadd returns for all images at once, whatever the groups, the stamp sizes and the numbers of workers. In particular a coadd coadded alone in this way is itself.", "quantifier": "all partitions of all lists of images of one shape (single-PSF or variable-PSF) with positive power, all stamp sizes and admissible numbers of workers", "why_tests_cant": "tests coadd once and look at the shape of the result", "anchors": ["properimage/operations.py:coadd"]}
{"id": "C155", "title": "How high a star stands in a coadd", "statement": "A star that all images show at one pixel, with fluxes of c times their zero points, raises that pixel of R by c times a number, the peak, and no pixel by more; the peak is the mean over the frequencies of the square root of the weighted PSF power. The noise of R being the same for all sets of images (C105), the peak measures how well the star is seen: it never falls when images are added, and rises strictly when the added image sees some frequency. Its square is at least the sum of the squares of the peaks of the images coadded alone, with equality exactly if at every frequency the amplitudes of the images are in the proportion of their peaks (such as for equal seeing), and the peak is at most the sum of the peaks. Squared and over the noise of a pixel it is at most the squared signal to noise ratio of the best statistic (C116), with equality exactly if the power is the same at all frequencies.", "quantifier": "all single-PSF images of one shape with power at all frequencies, all real PSF stamps, star positions and fluxes; the inequalities for all images", "why_tests_cant": "tests coadd two images and look at types and shapes; that more exposures always help is a statement about all of them", "anchors": ["properimage/operations.py:coadd"]}
{"id": "C156", "title": "How well a new star is seen in the difference image", "statement": "Centre the PSF image that subtract returns (beta=False, shift=False) on a star of flux one that is in the new image only, and sum D against it. The squared ratio of response to noise is the sum over the frequencies of 1/(N_n + b^2 N_r), where N is the squared noise of an image over its PSF power and b the ratio of the zero points. So a better image (less noise, sharper PSF, or higher zero point of the reference) never makes the ratio smaller; it is at most the best ratio which any linear statistic of the new image alone has for the star, and equal to it exactly if the reference has no noise; it is at most the best ratio of the reference alone for a star of flux 1/b; and with a reference of the same quality its square is exactly one half of that of the new image alone.", "quantifier": "all images of one shape, PSFs whose centre is on a pixel and whose transform has no zero real part, all noises, zero points and star positions", "why_tests_cant": "tests subtract one pair of images; how the detectability depends on the quality of the images is a statement about all pairs", "anchors": ["properimage/operations.py:subtract"]}
{"id": "C157", "title": "A coadd as the reference of a difference image", "statement": "Subtract from a new image a coadd, with the PSF image that coadd returned as its PSF, the noise of a coadd and the square root of the weighted PSF power at frequency zero as its zero point. A new star of flux one then has a squared signal to noise ratio of the sum over the frequencies of 1/(N + z^2/power), N being the new image's squared noise over its PSF power, z its zero point and power the weighted PSF power of the coadded images. So further images in the coadd never make a new star harder to see; it is never seen better than in the new image alone; and with enough exposures the ratio comes as close to that of the new image alone as one likes.", "quantifier": "all single-PSF images of one shape with power at all frequencies, all new images, stamp sizes, numbers of workers and zero points", "why_tests_cant": "tests call coadd and subtract separately and look at shapes", "anchors": ["properimage/operations.py:coadd", "properimage/operations.py:subtract"]}
{"id": "C158", "title": "The profile of the simulated PSFs and their true width", "statement": "In an array of odd size every pixel that Psf or astropy_Psf fills is the middle pixel times the height of a Gaussian whose standard deviations are the widths over 2.335; all other pixels are zero. Psf fills, on either side of the middle, as many rows and columns as there are whole pixels in five standard deviations of the wider axis, or half of the array; astropy_Psf fills seven standard deviations; both leave out the last row and column of that range. On the pixels that both fill, the two differ by a constant factor only. Because of the constant 2.335 (instead of 2.3548) the profile is wider than asked for: its full width at half maximum lies between 1.0084 and 1.0085 times the FWHM given, and for a FWHM of 2d pixels, d less than half of the array, the pixels d away from the middle along a row or column have between 50.5 and 50.6 percent of its value.", "quantifier": "all odd sizes, all positive widths, all pixels", "why_tests_cant": "tests compare a few pixels with a tolerance or only the sum of the array", "anchors": ["properimage/simtools.py:Psf", "properimage/simtools.py:astropy_Psf"]}
{"id": "C159", "title": "Integer images with a varying PSF cannot be coadded", "statement": "An image is stored as integers exactly if an array of 32-bit integers, bytes or booleans (or a primary HDU, or an HDU list with EXTEND false, of these) is given without a mask and guessmask is on; every other accepted image is floating point. For an integer image whose PSF has one element, the normalisation image, the matched filter, get_psf_xy and what coadd takes from it are those of a floating point image of the same pixels. If its PSF has more than one element, reading the normalisation image raises TypeError and stores nothing, so that the next reading raises it again; the matched filter, coadd, and get_psf_xy at every position raise TypeError too, where a floating point image of the same pixels goes through. The PSF itself can be had.", "quantifier": "all construction options and sources, all kinds of numbers, all images, zero points, losses and positions", "why_tests_cant": "tests construct images from floating point arrays only", "anchors": ["properimage/single_image.py:SingleImage.normal_image", "properimage/single_image.py:SingleImage.s_hat_comp", "properimage/single_image.py:SingleImage.get_psf_xy", "properimage/operations.py:coadd"]}
{"id": "C160", "title": "What an image can still do after its temporary files are removed", "statement": "Leaving the with block of an image, and passing it as the new image to subtract with align=True, removes the files with the cut-out stars while the object lives on. If its stars have not been cut out yet, nothing changes: the files are made again. If get_variable_psf has succeeded before from at most 250 stars, every later call, with any information loss and shape, has the outcome and leaves the attributes it would have had with the files. If only the stars' positions or number had been asked for, every later call of get_variable_psf raises OSError, for ever. If the PSF had been measured from more than 250 stars, a call with another information loss raises OSError, and the same call made again returns the PSF of the old loss without an error. For SingleImageGaussPSF, once the stars have been cut out, every call of get_variable_psf after the removal raises OSError.", "quantifier": "all images, numbers of stars, information losses, shapes and sequences of calls", "why_tests_cant": "needs an object used again after subtract(align=True) or after its with block, in each of its states", "anchors": ["properimage/single_image.py:SingleImage._clean", "properimage/single_image.py:SingleImage.cov_matrix", "properimage/single_image.py:SingleImage._setup_kl_basis", "properimage/single_image.py:SingleImage.get_variable_psf", "properimage/single_image.py:SingleImageGaussPSF.get_variable_psf", "properimage/operations.py:subtract"]}
{"id": "C161", "title": "Which PSF get_psf_xy returns", "statement": "For an image with a variable PSF whose coefficient fields are affine and whose basis elements are centred on their middle pixel, and a position at least twice the half-width of a stamp away from the edges: pixel (i, j) of what get_psf_xy(x, y) returns is pixel (i, j) of the unit PSF not at (x, y) but at the place in the frame which that pixel of the stamp covers, and the stamp is divided by its sum; x counts rows and y columns. If only the strength of the PSF varies over the frame (all fields proportional to one function), the PSF of the image is returned, the same everywhere. If the total of the PSF does not vary, the PSF at every position is centred on the middle pixel, but the stamp returned is displaced from it by the slopes of the fields times the second moments of the elements (a thirtieth of a pixel for a point that turns into a three-pixel bar over twenty rows). A position given as the x and y of the source catalogue yields the PSF of the transposed position.", "quantifier": "all affine fields, basis elements, frame sizes and positions away from the edges", "why_tests_cant": "needs the exact PSF at each place of a frame where it varies to compare with", "anchors": ["properimage/single_image.py:SingleImage.get_psf_xy", "properimage/single_image.py:SingleImage.normal_image"]}
{"id": "C162", "title": "The sky in the difference image and in the coadd", "statement": "Let an image show a sky, that is any brightness in every pixel (stars, galaxies, gradients), through its PSF: each sky pixel spreads its light as the stamp says, around the frame. With beta=False and shift=False, a sky that both images show at the same places, each through its own PSF and in the proportion of the zero points, does not change D at all, even if the centres of the PSFs are fractions of a pixel. Two different skies change the real part of D by the sky of the new image less b times that of the reference (b the ratio of the zero points), seen through the PSF image P that subtract returns and divided by sqrt(b^2 ref.var^2 + new.var^2); of two images that show nothing else D is exactly that. A sky that all images of a coadd show in the proportion of their zero points adds to R the same sky seen through the PSF image that coadd returns, times the square root of the weighted PSF power at frequency zero; a coadd of images that show nothing else is exactly that.", "quantifier": "all skies, pairs and lists of images of one shape, PSFs (centres on whole pixels except for the unchanged sky), noises and zero points", "why_tests_cant": "extended sources have no exact reference result to compare with", "anchors": ["properimage/operations.py:subtract", "properimage/operations.py:coadd"]}
{"id": "C163", "title": "Which changes of the sky the difference image shows", "statement": "With beta=False and shift=False, D stays the same in every pixel under additions to the skies of the two images (each seen through its own PSF, at the same places) if and only if the new image gained in every pixel exactly b times what the reference gained, b the ratio of the zero points: D is blind to no other change. With stamps that sum to one and fit the frame, the total of D changes by the total of the new sky less b times that of the old, over sqrt(b^2 ref.var^2 + new.var^2). If the brightnesses are really in the ratio c, D shows (c - b) times the reference's whole sky seen through P, over that noise. If the new image is misaligned by whole pixels, D shows at every source a dipole, b times its brightness times P at the displaced place less P at the place, over that noise, and the dipoles add up to zero. A coadd R stays the same under an addition to the common sky if and only if the addition is zero.", "quantifier": "all additions to the skies, displacements by whole pixels, brightness ratios, images of one shape, PSFs (centres on whole pixels except for the first equivalence), noises and zero points", "why_tests_cant": "that a result is blind to nothing else cannot be seen from any number of samples", "anchors": ["properimage/operations.py:subtract", "properimage/operations.py:coadd"]}
{"id": "C164", "title": "How far the number of workers changes the coadd in floating point", "statement": "In binary64 arithmetic the sums over the images that coadd forms do depend on n_procs: for three images of one pixel with coefficients 2^53, 1 and -2^53 one worker gives 0 and two workers give the right sum 1. But for every admissible n_procs and every order of k images each coefficient of both sums (real and imaginary part) lies within ((1+2^-53)^(k+1) - 1), at most (k+1) 2^-52, times the sum of the absolute values of what the images contribute, of the exact sum; two settings differ by at most twice that. The sum of the weighted PSF powers, whose terms are not negative, is therefore accurate to that relative error and stays real; with the steps after the sums exact, every pixel of R lies within 3g/sqrt(1-g), g that relative error, times the mean over the frequencies of the summed absolute contributions over the root of the power, of the exact R. Contributions that are whole multiples of a common power of two, with absolute values adding up to at most 2^53 multiples, are added without any error for every n_procs.", "quantifier": "all non-empty lists of images of one shape, all contributions, worker counts up to the number of images (and 2^25), orders of the images and frequencies", "why_tests_cant": "rounding differences between worker counts are invisible in most data and unbounded by any sample", "anchors": ["properimage/operations.py:coadd", "properimage/operations.py:process_chunk_joblib"]}
{"id": "C165", "title": "What the scale and shift fits of subtract recover from images without noise", "statement": "Take two images that show nothing but a sky through their own PSFs. Whatever the switches and the optimiser, the difference image is zero in every pixel if and only if the new image's sky is b times the reference's sky displaced by (dx, dy) plus the difference of the PSFs' off-centre positions, where b, dx, dy is what the fit ended with; so a fit can make up for a wrong centre of a PSF and for wrong zero points, and for nothing else. With beta=True and shift=False the cost that the optimiser is given is zero at the true brightness ratio R and at no other scale, provided nothing is masked and the backgrounds are equal; an optimiser that finds a minimum of it between 0.1 and 10 therefore returns R and the difference image is zero in every pixel, whatever the zero points say (the least-squares variant needs their ratio to lie between 0.1 and 10). With shift=True the cost is zero at the true scale and displacement, so an optimiser that finds a minimum leaves the real part of the difference image zero in every unmasked pixel at least 100 pixels away from the borders, for displacements up to 0.9 pixels; nothing follows for the pixels nearer to the border.", "quantifier": "all image sizes, PSFs, skies, noise levels, masks, zero points, switches; all optimisers that find a minimum of the cost they are given; displacements by any fraction of a pixel along sides of odd length and by whole pixels along any side", "why_tests_cant": "the fits are only ever run on a handful of noisy images, where neither the exact minimum nor its uniqueness can be seen", "anchors": ["properimage/operations.py:subtract"]}
{"id": "C166", "title": "diff and stack_R are subtract and coadd behind a warning nobody sees by default", "statement": "A call of diff returns what subtract returns for the same arguments, raises the exception subtract raises and changes what subtract changes, unless the first warning filter that applies to DeprecationWarnings of this text at line 434 of properimage.operations says error: then (unless the warning was already dealt with under the same filters) the call raises DeprecationWarning, subtract is not called and nothing is changed. The same holds of stack_R and coadd at line 585; in particular stack_R under warnings-as-errors does not rewrite the caller's list. Under the filters of an interpreter started without options, no sequence of calls shows any warning, not even calls from __main__, because the warning is attributed to properimage.operations instead of the caller. Under a default, module or once filter any positive number of calls, from however many places, shows the warning once; under an always filter each call shows it. If filters are installed between two calls, the warning is shown again under default and module, but not under once.", "quantifier": "all arguments, all filter lists, default actions and registries, all call stacks, all sequences of calls, all behaviours of the wrapped function", "why_tests_cant": "tests call each name once, under pytest's own filters, and only look at the type of the result", "anchors": ["properimage/operations.py:diff", "properimage/operations.py:stack_R"]}
{"id": "C167", "title": "The printed form of an image tells its shape; the coefficient fields' domain is the pixel grid", "statement": "repr of two images is the same text if and only if they have the same number of rows and the same number of columns, whatever their pixels. get_afield_domain returns two grids of the shape of the pixels, the first holding at each pixel its row and the second its column.", "quantifier": "all images of all shapes; all coefficient fields", "why_tests_cant": "a test can print only a few images and only checks that the domain is a tuple of arrays", "anchors": ["properimage/single_image.py:SingleImage.__repr__", "properimage/single_image.py:SingleImage.get_afield_domain"]}
{"id": "C168", "title": "What wrong PSFs do to the difference image", "statement": "Let both images show a constant sky (the new image b times as bright, b the ratio of the zero points) through PSFs that are not those subtract works with. The sky leaves no trace in D if and only if it looks the same through the new image's true PSF followed by the reference's assumed PSF as through the reference's true PSF followed by the new image's assumed PSF; for a star this says that these two blends of PSFs are the same image. So if both true PSFs are the assumed ones blurred by one common kernel, nothing shows; if only one of the two PSFs is wrong, every constant star shows. What such a sky adds to D in total is b times the light of the sky times (sum Tn * sum Pr - sum Tr * sum Pn) / sqrt(new.var^2 (sum Pr)^2 + b^2 ref.var^2 (sum Pn)^2): nothing at all when all PSFs have unit sums, however wrong they are, so the residuals have as much light missing as in excess.", "quantifier": "all image sizes, skies, true and assumed PSFs (assumed ones with a centre of mass on a pixel and an idle guard), noise levels, zero points, pixels already in the images", "why_tests_cant": "the tests never look at the difference image of an object whose PSF is misestimated; with noise the residuals cannot be told from other errors", "anchors": ["properimage/operations.py:subtract"]}
{"id": "C169", "title": "What the coadd's star statistic responds to, and what wrong PSFs cost", "statement": "Take from coadd the image R and the PSF image, centre the PSF image on a pixel and sum R against it. The pixels of the input images enter this sum with weights equal, up to one common factor, to the pictures of a star at that pixel in the images (the PSFs scaled with the zero points), each divided by the squared noise level of its image. So the squared response to anything in the images, divided by the noise variance, is the squared overlap with those pictures over their power. For a star shown through PSFs other than those coadd worked with it is (sum_m zp^2/var^2 <assumed, true>)^2 / sum_m zp^2/var^2 <assumed, assumed>, never more than the best achievable sum_m zp^2/var^2 <true, true>, and equal to it if and only if the true PSFs are the assumed ones times one factor common to all images.", "quantifier": "all numbers of images, sizes, PSFs (true and assumed), zero points, nonzero noise levels, worker counts, positions; all signals in the images", "why_tests_cant": "the tests look at shapes and types of the coadd; the weight with which each input pixel enters, and the loss for a wrong PSF, need the response to every possible image", "anchors": ["properimage/operations.py:coadd"]}
{"id": "C170", "title": "What the difference image's star statistic responds to, and what a wrong PSF of the new star costs", "statement": "Take from subtract (without the fits of scale and shift) the images D and P, centre P on a place and sum D against it. For anything the two images may show, the response of this sum and its noise are given by an explicit formula in the transforms of what they show and of the two PSFs. For a star in the new image only that is seen through a PSF other than the one subtract works with, the response is that to a star with the assumed PSF times the weighted overlap of the two PSFs over the weighted power of the assumed one, so its flux is measured wrong by that ratio; the weight of a frequency is |ref PSF|^2 / (new.var^2 |ref PSF|^2 + ref.var^2 b^2 |new PSF|^2). The squared signal-to-noise ratio is |overlap|^2 / power. No statistic that ignores constant stars exceeds the weighted power of the true PSF, and the sum reaches it if and only if the true PSF is the assumed one up to a factor. When both images have the same PSF p the ratio is <p, true>^2 / ((new.var^2 + b^2 ref.var^2) <p, p>).", "quantifier": "all image sizes, signals in the two images, true PSFs of the star, assumed PSFs with a centre of mass on a pixel and (for the star) an idle guard, noise levels not both zero, zero points with nonzero ratio, positions", "why_tests_cant": "the tests check that subtract runs and its output shape; a loss of signal-to-noise from a misestimated PSF is a statement about all noise realisations and all other statistics", "anchors": ["properimage/operations.py:subtract"]}
{"id": "C171", "title": "What wrong noise levels and zero points do to the difference image and the coadd", "statement": "Suppose the noise levels (and, for the coadd, the zero points) that the images report are not the true ones. In the difference image returned by subtract (fits of scale and shift off) the covariance of two pixels is the inverse transform, at their separation, of the power (sn^2 |r|^2 + sr^2 b^2 |n|^2) / (new.var^2 |r|^2 + ref.var^2 b^2 |n|^2), where sn and sr are the true levels and r, n the transforms of the two PSFs. Its pixels' variance, which should be 1, lies between the smaller and the larger of the two ratios of true to recorded noise power. The noise stays uncorrelated between pixels if and only if both levels are wrong by the same factor or the powers of the two PSFs are proportional over all frequencies. In the coadd the covariance is the inverse transform of (sum of s^2 zp^2/var^4 |psf|^2) / (sum of zp^2/var^2 |psf|^2), and the variance of its pixels lies between the smallest and largest ratio of true to recorded noise power, over the number of pixels. The coadd's star statistic has squared signal-to-noise ratio (sum of zp f E / var^2)^2 / (sum of zp^2 s^2 E / var^4), with f the true brightness, s the true noise and E the energy of the PSF in each image; this is at most the sum of f^2 E / s^2, with equality if and only if the recorded zp/var^2 are proportional to the true f/s^2.", "quantifier": "all image sizes, numbers of images, true and recorded noise levels, true and recorded zero points, PSFs that do not vary, pixel pairs, process counts", "why_tests_cant": "a test has one noise realisation and takes the recorded levels as the truth; correlation and signal-to-noise are statements about all realisations", "anchors": ["properimage/operations.py:subtract", "properimage/operations.py:coadd"]}
{"id": "C172", "title": "Images turned upside down: the result is upside down, but for a checkerboard when a PSF is centred between pixels", "statement": "Turn every array upside down (pixels, masks, PSF stamps, backgrounds; the rows in reverse order). subtract, with or without the fit of the scale and without the fit of the shift, then returns a difference image whose real part is upside down, the mask upside down and a PSF reflected, or the same error, provided that the height or the width is odd or each PSF has its centre of mass on a row or a column of pixels. If height and width are both even this proviso is needed: with the fits off, the real part of the difference image differs from the original upside down by exactly a checkerboard (-1)^(i+j) of amplitude 2/(h w) times (sin sin A(r) A(new) - b sin sin A(n) A(ref)) / sqrt(new.var^2 A(r)^2 + b^2 ref.var^2 A(n)^2), where the sines are those of pi times the coordinates of the centre of the PSF that each product starts from and A is the sum of an array with alternating signs. coadd of images with PSFs that do not vary returns, for any two worker counts, the mask upside down, the coadd's PSF reflected about row psf_shape, and a coadd whose real part is upside down but for the checkerboard of amplitude 2/(h w)^(3/2) times sum(zp/var^2 sin sin A(image) A(psf)) / sqrt(sum(zp^2/var^2 A(psf)^2)) when both sides are even. A quarter of a pixel in both directions on 2 x 2 images gives amplitudes 1/(4 sqrt 2) and 1/8.", "quantifier": "all images, masks, PSF stamps not larger than the image, sizes of both parities, zero points, noise levels, worker counts", "why_tests_cant": "a test mirrors one image with an odd or well-centred PSF and sees nothing; the term lives in a single Fourier coefficient and its exact size is a statement about all images", "anchors": ["properimage/operations.py:subtract", "properimage/operations.py:coadd"]}
{"id": "C173", "title": "Varying PSFs: s_component is not the matched filter of a star, and the noise of the coadd depends on how the PSF is written down", "statement": "Let an image have a PSF that varies with position, described by basis elements and coefficient fields, the first element centred on a whole pixel. s_component[i, j] is zp/var^2/sqrt(h w) times the sum over pixels u of the image at u times the PSF that the model gives for a star at u (not at (i, j)), taken at u - (i, j) plus the centre and divided by the normalisation at u, cyclically. A star of flux F at (i, j) with the PSF of the model there therefore adds F times the overlap of those weights with its own shape; the square of what it adds is at most the variance of s_component[i, j] under pixel errors of standard deviation var times F^2/var^2 times the energy of the star's shape, with equality, i.e. the best any linear filter can do, if and only if the weights are proportional to the star's shape. That can fail: with a PSF that is sharper in column 0 a star in column 1 is brightest in column 0 of s_component, and the variance of s_component is 44/192 in one pixel and 21/192 in the next. In coadd, for any number of images and of workers, the variances of all pixels of the coadd add up to 1/(h w)^2 times the sum over positions and frequencies of sum(zp^2/var^2 |transform of the PSF at the position|^2/norm^2) / sum(zp^2/var^2 sum of |transforms of the basis elements|^2): at most the largest sum of squared coefficients over norm^2, one for an ordinary PSF in one element, and 1/4 for one image whose constant PSF, half in each of two columns, is written in two orthonormal elements.", "quantifier": "all images, numbers of images, basis elements, coefficient fields, zero points, noise levels, pixels and worker counts", "why_tests_cant": "that a filter is optimal is a statement about all filters and all noise; a test compares one image with a recorded array", "anchors": ["properimage/single_image.py:s_component", "properimage/operations.py:coadd"]}
{"id": "C174", "title": "How exactly a PSF sums to one in floating point", "statement": "Psf, astropy_Psf, the star stamps, the elements of the PSF basis and get_psf_xy divide an array by np.sum of it. Let every addition and division be rounded with relative error at most u and let the additions be made in any order in which no number goes through more than d of them, g = (1+u)^d - 1. If the array sums to T and its absolute values to A with g A < |T|, the result has numbers in it, its exact total differs from one by at most (u+g) A/(|T| - g A), and every pixel differs from the exactly normalised one by at most the fraction (u|T| + g A)/(|T| - g A). An array without negative values has A = T: the result is not negative, is NaN exactly if the array is zero, and the total and every pixel are right to the fraction (u+g)/(1-g). numpy's order (eight running sums in blocks of 128, blocks in pairs) adds every element exactly once and has d <= 26+k for up to 112 2^k + 16 pixels. So in binary64 Psf(N, X_FWHM, Y_FWHM) with theta = 0, whatever the computed densities, is not negative and its total is within (27+k) 2^-52 of one: 41 2^-52 for 1000 x 1000 pixels. The total need not be one (three equal pixels: three rounded thirds), and with negative pixels nothing is guaranteed: for the stamp 2^53, 1, -2^53 numpy's sum is 0 and the division gives no numbers, although the total is 1 and another order of the additions finds it.", "quantifier": "all arrays, sizes, orders of the additions and roundings with relative error u; for Psf all N >= 1 and positive widths", "why_tests_cant": "a test compares one total with one up to a tolerance; the bound is over all arrays and all orders", "anchors": ["properimage/simtools.py:Psf", "properimage/single_image.py:get_psf_xy"]}
{"id": "C175", "title": "Transposing, turning and rescaling images whose PSFs vary, in coadd", "statement": "coadd of images with variable PSFs (basis elements with coefficient fields), whatever the numbers of processes and the order in which their results arrive. Transposing every image (pixels, mask, every basis element and every coefficient field) transposes R, P_r and the mask. Turning every image by half a turn in the same sense turns the mask, replaces R by the complex conjugate of the turned R and leaves P_r as it is, provided the basis elements of each image have one shape with odd sides that fits into the image and the first element has a non-zero total; with even sides this is false: for one image of 1 x 2 pixels and a stamp of two pixels the values of R sum to (3/2)/sqrt 2, and to 2/sqrt 2 after the turn, because the normalisation image convolves with an even stamp off centre. Measuring each image in a unit of its own (pixels, noise and zero point times a non-zero number), multiplying all zero points by a common positive number and the coefficient fields of each image by a non-zero number changes none of R, P_r and mask. Neither does the order of the basis elements of an image behind the first.", "quantifier": "all numbers of images, image shapes, pixels, masks, bases, coefficient fields, zero points and noise levels, numbers of processes and arrival orders", "why_tests_cant": "a test looks at one field; a symmetry relates all pairs of inputs", "anchors": ["properimage/operations.py:coadd", "properimage/single_image.py:s_hat_comp", "properimage/single_image.py:normal_image", "properimage/single_image.py:psf_hat_sqnorm"]}
{"id": "C176", "title": "A new star, from the two exposures to the list of local maxima", "statement": "subtract without the fits, followed by find_S_local_maxima. For every image, whatever the clipping does, a pixel is detected if for some level c below it 27 N (value - c)^2 > 64 (1+t^2) times the sum of (pixel - c)^2 over all N pixels, with threshold t; the darkest pixel never is. Two exposures with the same PSF and zero point that differ only by a star: S is the flux over (zero point, sum of the squared noises, square root of N), times the autocorrelation of the PSF around the star, over the noise the score allows for, which is positive. So a star of positive flux is detected, at the pixel where its copy of P has its centre, and belongs to an entry of the list, however faint it is, if the root mean square of the autocorrelation over the noise is at most r times its value at the star and the score is computed to delta times its peak, with 64 (1+t^2)(r+delta)^2 < 27 (1-delta)^2; with the default threshold r = 0.23 and delta = 0.005 will do, and with one-pixel PSFs 19 pixels. The call returns if no pixel of the computed score is negative. A star that is fainter in the new image is never detected there, with any threshold, if the noise is nowhere lower than at the star.", "quantifier": "all skies, all PSFs whose coefficients have no vanishing real part and whose centre is whole pixels away from that of P, all zero points and noise levels, places and fluxes, thresholds, and all score images within the stated rounding", "why_tests_cant": "the criterion ranges over all images, PSFs, fluxes and roundings; a test finds one star in one image", "anchors": ["properimage/operations.py:subtract", "properimage/utils.py:find_S_local_maxima"]}
{"id": "C177", "title": "Subtracting a coadd loses nothing", "statement": "coadd makes a reference of any number of earlier exposures and subtract, without the fits, takes it from a new image, with the PSF image that coadd returned as the PSF of the reference, its noise (one over the square root of the number of pixels) and, as ratio of the zero points, that of the new image over the flux scale of the coadd. D is a linear function of the pixels of all exposures. A sky that does not change, shown by every exposure in proportion to its zero point, leaves no trace in D, whatever else the exposures show. If the pixels of all exposures carry independent noise of the stated levels, the noise of D is white with variance one. The sum of D against the PSF image that subtract returns, centred on a star, ignores the unchanged stars, and no linear statistic of all pixels of all exposures that does so has a larger ratio of response, to a star in the new image only, to noise: going through the coadd costs nothing. The conditions on the coadd's PSF image hold on frames with as many rows and columns as twice the stamp size plus one: its centre of mass is the middle pixel, and for any odd numbers of rows and columns no coefficient has a vanishing real part.", "quantifier": "any number of exposures with real PSFs, centres on whole pixels and non-zero noise, a weighted PSF power that vanishes nowhere, any pixels, skies, star positions and weights of competing statistics", "why_tests_cant": "the comparison ranges over all statistics of all exposures and over all skies; a test compares two programs on one set of images", "anchors": ["properimage/operations.py:coadd", "properimage/operations.py:subtract"]}
{"id": "C178", "title": "When the first PSF and matched filter are made", "statement": "get_variable_psf is called on an image whose PSF has not been measured. Suppose the star stamps are found and finite, the eigenvalue routine returns one eigenvalue per stamp, not all zero, and the information loss (given or stored) is not negative; a stamp shape may be asked for. If the loss asks for one element, the call returns that element with None for its coefficient, and no fit is made, so none can fail. Otherwise, once the positions of the stars are read: with no position it raises IndexError; if every fit of the elements returns, the call returns as many coefficients as elements, that of element k being the fit, at those positions, to the components of the eigenvector of the k-th largest eigenvalue; if not, it raises what the first failing fit raises. A second call returns the same and changes nothing. On an image with nothing cached, the normalisation is then that of the measured PSF, and the matched filter and its inverse transform are those of the stored zero point (or 1), PSF, normalisation and interpolated image; they raise exactly what the interpolation of the image raises.", "quantifier": "any eigenvalue routine, fit, smoothing, image and number of stamps, any information loss not below zero and any requested shape", "why_tests_cant": "a test calls libraries that succeed; that nothing between the stamps and the filter can fail besides them is a statement about all of them", "anchors": ["properimage/single_image.py:get_variable_psf", "properimage/single_image.py:_setup_kl_a_fields", "properimage/single_image.py:normal_image", "properimage/single_image.py:s_hat_comp", "properimage/single_image.py:s_component"]}
{"id": "C179", "title": "Images with Gaussian noise: the law of D and of a coadd, false alarms and detections", "statement": "Let every pixel of the two exposures carry an independent Gaussian error with the standard deviation that the image states as its noise (PSF centres on whole pixels or odd axes; beta=False, shift=False). Then the pixels of D are real, independent of each other, and each is Gaussian with variance exactly one around the D of the noiseless exposures. So if nothing changed (noiseless D zero) the probability that no pixel of D exceeds t is the probability that one standard Gaussian does not, to the power of the number of pixels; any weighted sum of the pixels of D is Gaussian with the sum of the squared weights as variance. A new star of flux c on an unchanged sky: the sum of D against the returned PSF image rolled onto the star is Gaussian with variance I and mean c times I, where I is the squared signal to noise ratio (per unit flux) of C156, so it exceeds t standard deviations with the probability that a standard Gaussian exceeds t - c sqrt(I). The pixels of a coadd are real and independent Gaussians around the coadd of the noiseless exposures, but of variance one over the number of pixels, and the false alarm probability on an empty sky is that of such a Gaussian to the power of the number of pixels.", "quantifier": "all image sizes, pixel values, real PSFs with centres on whole pixels, noise levels (at least one non-zero), non-zero flux ratios, star positions and fluxes, thresholds, numbers of coadded images and worker counts within the float limits; all probability spaces carrying such errors (they exist for all noise levels)", "why_tests_cant": "A simulation shows a histogram of one noise level; it can neither show independence of the pixels nor the exact law for every PSF, and cannot tell a variance of 1 from 0.99.", "anchors": ["properimage/operations.py:subtract", "properimage/operations.py:coadd"]}
{"id": "C180", "title": "A star that moves or changes between the exposures", "statement": "A star has flux f in the reference and flux g in the new image, at two places (corner of its stamp plus centre of mass of the image's PSF, so the displacement need not be whole pixels); beta=False, shift=False, b the ratio of the zero points. The power that it adds to D (sum over the pixels of the squared modulus of the change) is (g - b f)^2 times the squared signal to noise ratio I of C156, plus 4 g b f times the sum over the frequencies of their share of I times the squared sine of half the angle by which the displacement turns them. D shows nothing of the star exactly if g = b f and (if it is not dark) along every axis with more than one pixel it did not move or moved by a whole number of frames: every smaller motion, however small, is seen in a noiseless difference. The sum of the change over all pixels is proportional to g - b f, so a star that only moves leaves a positive and a negative lobe that cancel. For fluxes of the same sign the power is at most ((g - b f)^2 + g b f (pi (|dx| + |dy|))^2) I: a motion by a small part of a pixel leaves a signal to noise ratio proportional to it. With independent Gaussian errors on an otherwise unchanged sky, the sum of D against that change is Gaussian with this power as mean and as variance.", "quantifier": "all image sizes, PSFs whose transform does not vanish, noise levels (one non-zero), flux ratios, star positions, fluxes (also negative or zero) and displacements; the Gaussian law for PSF centres on whole pixels or odd axes", "why_tests_cant": "A test moves one star by a chosen amount; that no motion cancels, at any frequency and for any PSF pair, and the exact power need all of them.", "anchors": ["properimage/operations.py:subtract"]}
{"id": "C181", "title": "No test finds stars better than the coadd and the difference image", "statement": "Exposures carry independent Gaussian errors of the stated noise levels on an arbitrary known sky. A test is any measurable set of exposures (those in which it reports the star), linear in the pixels or not. (a) coadd: report a star when R summed against the returned PSF image centred on it exceeds t. Every test that raises false alarms with no greater probability finds the star with no greater probability, for every flux of the star at once. (b) subtract with beta=False, shift=False: report a new star when D summed against the returned PSF image centred on it exceeds t. This test gives the same answer when constant stars of any brightness are added anywhere in both exposures; every test with that property that raises false alarms with no greater probability finds the new star with no greater probability, for every flux at once. In both cases every false alarm probability strictly between zero and one belongs to some t, so each test has such a threshold to be compared with.", "quantifier": "all image sizes, numbers of exposures, PSFs (transform nowhere zero for subtract; power of the exposures nowhere zero for coadd), non-zero noise levels, zero points, star positions, fluxes, skies, thresholds and measurable tests", "why_tests_cant": "The competitors are all measurable sets of exposures, linear or not; C116 and C156 only compare linear statistics, and no list of detectors covers the rest.", "anchors": ["properimage/operations.py:coadd", "properimage/operations.py:subtract"]}
{"id": "C182", "title": "Noise, false alarms and detections when a coadd of earlier exposures is subtracted", "statement": "Earlier exposures are coadded, and the coadd, with its PSF image, flux scale and noise level, is subtracted from a new image (beta=False, shift=False). If all exposures have independent Gaussian pixels around an arbitrary sky, with the stated noise levels, the pixels of D are real, independent of each other, and Gaussian of variance one around D of the noiseless exposures. So where the noiseless D is zero (for instance on an unchanged sky, C177) no pixel of D exceeds t with the probability of one standard Gaussian, to the power of the number of pixels. Report a new star when D summed against the returned PSF image centred on it exceeds t: the answer does not change when unchanging stars are added to all exposures, and of all tests of all the pixels of all the exposures, linear or not, with that property and no greater false alarm probability, none finds the new star with a greater probability, for every flux at once. Every false alarm probability strictly between zero and one belongs to some t.", "quantifier": "all numbers of earlier exposures, image sizes, PSFs, non-zero noise levels, zero points, skies, star positions, fluxes, thresholds and measurable tests", "why_tests_cant": "The law is that of a two-stage pipeline over all sizes and PSFs, and the competitors are all measurable sets of tuples of exposures.", "anchors": ["properimage/operations.py:coadd", "properimage/operations.py:subtract"]}
{"id": "C183", "title": "The coadd keeps everything the exposures say about the sky, and nothing else", "statement": "Take exposures of one sky, seen through PSFs centred on whole pixels and as bright as their zero points say, whose pixels have independent Gaussian errors of the stated noise levels. Two possible sets of such exposures favour the same skies over the same others, to the same degree, exactly if coadd returns the same image for both. Whatever is computed from the exposures (within bounds), some function of the coadded image has the same mean and no greater mean squared error about any number, for every sky at once. So every test of the exposures can be replaced by one that looks at the coadded image only and reports with the same probability, whatever the sky.", "quantifier": "Every list of images with constant PSF, their zero points and nonzero noise levels, every sky, every known image underneath, every bounded measurable statistic of the exposures and every measurable test; the weighted PSF power must not vanish", "why_tests_cant": "The claim is about all skies, all sets of exposures and all statistics that could be computed from them, and about probabilities; a test tries one statistic on a few simulated skies", "anchors": ["properimage/operations.py:coadd", "properimage/single_image.py:SingleImage.s_hat_comp"]}
{"id": "C184", "title": "What does not react to an unchanging sky is a function of the difference image", "statement": "Run subtract (beta=False, shift=False) on a reference and a new image whose PSFs have no transform below the guard of the division. Two pairs of exposures give the same D exactly if they differ by an unchanging sky: some image, seen through the PSF of the reference in the one and through that of the new image, times the flux ratio, in the other. So whatever is computed from the two exposures - a test, an image, a catalogue - does not react to unchanging skies exactly if it can be computed from D.", "quantifier": "All pairs of exposures of every size, all PSFs without vanishing transform whose stamps are centred alike, noise levels not both irrelevant, zero points, skies, and all functions of the pixels of the two exposures with values in any type.", "why_tests_cant": "The claim is about every function of two exposures; a test can only look at single ones.", "anchors": ["properimage/operations.py:subtract"]}
{"id": "C185", "title": "No unbiased measurement of a flux is more precise than the coadd's or the difference image's", "statement": "Exposures with independent Gaussian errors of known levels. Read the flux of a star at a known place off the coadd: the sum of R against the returned PSF image placed on the star, above that sum for the known rest of the sky, in units of what a star of unit flux adds to it. This is the true flux on average, with variance 1/I, where I is the summed power of the coadd (C116). No measurement made from the exposures in any way whatever, linear or not, that is the true flux on average for the flux in question and the fluxes a little above it, has a smaller variance. Likewise the flux of a new star read off subtract's D is the true flux on average whatever unchanging sky the two exposures show, with variance 1/I', I' the squared signal to noise ratio of C156; and no measurement made from the two exposures that is the true flux on average whatever unchanging sky there is has a smaller variance.", "quantifier": "All numbers and sizes of exposures, PSFs, positive or negative zero points, non-zero noise levels, worker counts within coadd's chunking bounds, star positions and fluxes, known rests of the sky, unchanging skies, and all square-integrable measurements of the pixels.", "why_tests_cant": "The claim compares with every possible measurement and is about probability laws of the errors; no finite set of simulated exposures can test it.", "anchors": ["properimage/operations.py:coadd", "properimage/operations.py:subtract", "properimage/single_image.py:SingleImage.s_hat_comp"]}
{"id": "C186", "title": "Subtracting the same two images again", "statement": "Let subtract be called again and again on the same two image objects (already aligned), no star being at the same distance from two stars of the other list. The second call estimates the zero points from the stars that the first one left in the two catalogues, and gives the zero points that image objects never used before would get if they had just these stars, in any order. Every later call gives the zero points of the second. If the first call dropped no star from either catalogue (none was rejected when the PSF was measured, fewer than fifteen were good, or the PSF was there already), all calls give the same zero points. Otherwise the second call may differ from the first: with sixteen stars of which one, a bad one for the PSF, is ten thousand times as bright in the new image, the first call gives zero points 285/16 and 275/16, the second 300/17 for both.", "quantifier": "all catalogues without ties in distance, whether used before or not; all sets of rejected stars; any number of calls; any nearest neighbour search that meets the contract; the minimum norm solution of the fit", "why_tests_cant": "A test that subtracts twice and compares passes on any field where no star is rejected or fewer than fifteen are good; the change shows only where a rejected star has another flux ratio than the rest.", "anchors": ["properimage/operations.py:subtract", "properimage/utils.py:transparency", "properimage/single_image.py:SingleImage.stamps_pos", "properimage/single_image.py:SingleImage.best_sources", "properimage/single_image.py:SingleImage.update_sources"]}
{"id": "C187", "title": "Coadding the same images again", "statement": "Let coadd (align=False) be called again and again on the same image objects, any number of them, no star being at the same distance from two stars of the first image or the other way round. The zero points of the second call are those that new image objects would get whose catalogues are what the first call left (the stars of the first image in their order, those of the others in any order); every later call gets the zero points of the second; if the first call dropped no star from any catalogue they are those of the first. For PSFs that do not vary over the image, the second call returns the PSF image that new objects with the new zero points would give, but as image the first coadd, filtered at each frequency with the root of the ratio of the summed weights of the two calls, because every object keeps its matched filter with the old zero point. With the same zero points it is the first coadd again, with all zero points multiplied by c > 0 the first coadd divided by c. For one pixel images showing 1, zero points 3 and 4 and then 5 and 12, the first coadd is 7/5, the second 7/13, that of new objects 17/13.", "quantifier": "all numbers of images; all catalogues without ties in distance, used before or not; all sets of rejected stars; any number of calls; all zero points, noise levels, PSFs and pixels; all admissible numbers of workers", "why_tests_cant": "A test that coadds the same list twice sees a difference only if some but not too many stars are rejected and the rejected ones have other flux ratios; nothing in the result shows that the matched filters are old.", "anchors": ["properimage/operations.py:coadd", "properimage/utils.py:transparency", "properimage/single_image.py:SingleImage.s_hat_comp", "properimage/single_image.py:SingleImage.stamps_pos", "properimage/single_image.py:SingleImage.zp"]}
{"id": "C188", "title": "The cut-out stars of several images are kept apart, those of copies are not", "statement": "Each image keeps its cut-out stars in files named after its address in memory, in a directory made when the module is imported. In a process that copies no image, with any number of images made, measured, read, cleaned and discarded in any order (also interleaved, as in the threads of coadd), whatever an image gets when it reads its stars is what it would get if it were the only image ever made: exactly the stamps it cut out, in their order, even if it has the address of a discarded image whose files were left behind. An image made by copy.copy shares the files of its original, and so do images at the same address in two processes forked after the import: once one of the two cuts out its stars, the other reads these for its own without an error, and once one is cleaned, the other raises OSError when it reads its stars.", "quantifier": "all histories of operations of any number of images with any addresses that Python may give, all stamps, all files left behind", "why_tests_cant": "needs a reused address, a copied image or two forked processes, and a certain order of their operations; the wrong stars are read without an error", "anchors": ["properimage/single_image.py:SingleImage.__init__", "properimage/single_image.py:SingleImage.stamps_pos", "properimage/single_image.py:SingleImage.cov_matrix", "properimage/single_image.py:SingleImage._clean", "properimage/operations.py:coadd"]}
{"id": "C189", "title": "Fitting the coadd or the difference image is fitting the exposures", "statement": "For exposures with Gaussian noise, how badly a model sky fits is the sum over all pixels of all exposures of the squared deviations over the noise variances (chi squared). For coadd this is, for every sky, how badly the sky seen through the PSF of the coadd fits the coadd, counted with the same noise in every pixel, plus a number that does not depend on the sky; so of any set of skies the same ones fit best. For subtract (beta=False), how badly a change of the sky, seen through the PSF of the difference image, fits the difference image is exactly how badly it fits the two exposures together with the unchanging sky that suits it best. In both cases the star that fits the exposures best, of all stars of any flux on any pixel, is on the pixel where the image summed against its PSF is largest in absolute value, and its flux is this sum over the flux scale and the summed squares of the PSF.", "quantifier": "all exposures of any size and number, all variances, zero points and PSFs with centre of mass on a pixel and transform not cut off, all skies and changes", "why_tests_cant": "a test fits some stars in some images; that no sky, star or flux fits the exposures better is a statement about all of them", "anchors": ["properimage/operations.py:coadd", "properimage/operations.py:subtract", "properimage/single_image.py:SingleImage.s_hat_comp", "properimage/single_image.py:SingleImage.get_variable_psf"]}
{"id": "C190", "title": "How often the score image exceeds a threshold", "statement": "subtract with beta=False, shift=False; S computed with the denominator of the exposures given. If the pixels of both exposures carry independent Gaussian errors of whatever standard deviations, every pixel of S is Gaussian around S of the exposures without errors. If the variances are the 'pixel + 1' that subtract itself puts into the denominator, the standard deviation of S at a pixel is not one: it is one over the zero point of the reference and the root of the number of pixels, times the root of the ratio (positive if the new image is above -1) of the noise that the filter collects to the noise that the denominator took from displaced pixels. So where nothing changed, S exceeds t with the probability that a standard Gaussian exceeds t times the zero point times the root of the number of pixels over the root of that ratio, and the expected number of pixels above t is the sum of these probabilities. In flat exposures the ratio is one everywhere: with the zero point 1 a threshold of 5 in an image of a million pixels is one of 5000 standard deviations. Next to a bright unchanged star it is the other way round: for one-pixel PSFs in stamps of 1x3 and a star of 97 counts in both exposures, S exceeds 7 there with at least the probability that a standard Gaussian exceeds 1.25.", "quantifier": "all pairs of images of one shape with pixels at least -1, all PSFs, noise estimates not both zero, zero points with non-zero ratio, all thresholds and pixels; PSF and score centres that differ by whole pixels", "why_tests_cant": "a rate of false alarms is a statement about all noise patterns; a test looks at a few images and cannot tell a wrong unit from a bad field", "anchors": ["properimage/operations.py:subtract", "properimage/utils.py:find_S_local_maxima"]}
{"id": "C191", "title": "How wrong or variable fluxes of stars reach the zero points", "statement": "transparency of two images, each with fresh catalogues. Multiply the measured flux of each star of either catalogue by a factor of its own: which stars are matched does not change, and with n matched stars and the sums R0, R1 of 2.5 log10 of the factors of the matched stars the zero points move by -(R0 - (R0+R1)/(n+2))/n and -(R1 - (R0+R1)/(n+2))/n. So if no magnitude is wrong by more than e, no zero point is wrong by more than e, nor the offset by more than 2e, and both bounds are reached. A single matched star that is v times as bright in the second image moves the first zero point up by 2.5 log10 v / (n(n+2)), the second down by (n+1) times that, the offset by 2.5 log10 v / n: a share of any size can come from one star, for nothing rejects it. A star that is not matched has no influence at all.", "quantifier": "all pairs of catalogues with positive fluxes of which at least one pair of stars is matched, all positive factors, all k-d tree queries that satisfy their contract, all least-squares solvers that return the least-squares solution of least norm", "why_tests_cant": "robustness is a statement about all errors of all stars; a test perturbs a few and compares with a tolerance", "anchors": ["properimage/utils.py:transparency", "properimage/utils.py:_matching"]}
{"id": "C192", "title": "When the PSF of an image is the weighted mean of its stars", "statement": "get_variable_psf keeps a single element exactly if some one picture, scaled for each star, leaves no more than the share inf_loss of the star stamps (each less its own mean pixel, for at most 250 stars). Suppose that every two stars are positively correlated, as stamps of one PSF are. Then a single element, for at most 250 unit-sum stamps, is the weighted mean of the stamps, with weights that are all positive and add up to one: every pixel of the PSF lies between the least and the largest value the stars have there, and a star whose covariances with all stars are at most r times those of another star has at most r times its weight. With more than 250 stars it is that mean less its least pixel (in absolute value), divided by its sum. If the 2 to 250 stars all have the same stamp, and it is not flat, the first call returns that stamp exactly, for every inf_loss, and None for its coefficient.", "quantifier": "all sets of 2 or more star stamps, all exact eigen-decompositions of their covariance matrix (degenerate ones included), all inf_loss of at least 0, no smoothing", "why_tests_cant": "that a principal component is a mean of the stars, whatever their number and noise, is the theorem of Perron for their covariance matrix; tests see a few fields and stop at a tolerance", "anchors": ["properimage/single_image.py:SingleImage.get_variable_psf", "properimage/single_image.py:SingleImage.kl_basis", "properimage/single_image.py:SingleImage.cov_matrix", "properimage/single_image.py:SingleImage._setup_kl_basis"]}
{"id": "C193", "title": "How much wrong pixels of the exposures can do to the difference image and to a coadd", "statement": "Change the background-subtracted pixels of the two exposures by any errors at all, with the same PSFs, noise levels and flux factors (beta=False, shift=False). The squares of the changes of all pixels of the D that subtract returns add up to at most the sum of the squares of the errors, each in units of the noise of its exposure. So if only b pixels of the two exposures are wrong (filled in behind a mask, a cosmic ray left in) and none by more than k times its noise, no pixel of D is off by more than k times the root of b, and at most b k^2/t^2 pixels are off by t or more, however large the images and whatever the PSFs: one wrong pixel never makes more false detections above t than (k/t)^2. The bound is exact: every change of D is produced by some errors that reach it, and by none smaller. The same holds for the R of coadd of any number of exposures, with the sum of the squared errors divided by the number of pixels.", "quantifier": "all pairs of exposures with masks and images of one shape and non-zero noise, all PSFs, zero points and errors; for coadd all numbers of exposures, PSFs with whole-pixel centres, process counts and errors, where no frequency lacks power", "why_tests_cant": "the worst arrangement of wrong pixels is a combination of all pixels of both exposures through the inverse PSFs; a test tries some arrangements and cannot rule out that others do worse", "anchors": ["properimage/operations.py:subtract", "properimage/operations.py:coadd", "properimage/single_image.py:SingleImage.interped", "properimage/single_image.py:SingleImage.s_hat_comp"]}
{"id": "C194", "title": "Exposures with one PSF: when the coadd and the difference image are made pixel by pixel", "statement": "Let all exposures given to coadd have the same PSF (of any form, transform nowhere zero) and any zero points and noise levels. Then R is the sum of the exposures with weights zp/var^2, divided by the root of the summed zp^2/var^2 and of the number of pixels, with every frequency turned by the phase of the centred PSF and none made stronger or weaker: the two images have the same sum of squares, nothing is sharpened or smoothed. They are equal pixel by pixel, whatever the exposures show, exactly if the transform of the centred PSF is real and positive at every frequency. Likewise for subtract (beta=False, shift=False) of two exposures with the same PSF: D is the new exposure less the flux ratio times the reference, over the noise of that difference, turned in the same way, and is that plain difference for all exposures exactly if the centred PSF transform (with the guard of the division) is positive. For the PSF (a, 1-2a, a) this is so if a < 1/3; if a > 1/3 (a ring, as out of focus) a new source appears in its own pixel with the opposite sign, at -1/3 of its value, and at +2/3 in both neighbours.", "quantifier": "all numbers and sizes of exposures, all pixels, all PSFs, centres, zero points (not all zero for coadd) and noise levels (non-zero for coadd, not both zero for subtract), all admissible numbers of workers", "why_tests_cant": "that images are combined pixel by pixel in the commonest case of equal PSFs, and in which cases not, is a statement about all images; a test with Gaussian PSFs always passes", "anchors": ["properimage/operations.py:coadd", "properimage/operations.py:subtract", "properimage/single_image.py:SingleImage.s_hat_comp", "properimage/single_image.py:SingleImage.psf_hat_sqnorm"]}
{"id": "C195", "title": "How sharp the coadd and the difference image are", "statement": "Measure the sharpness of a PSF at a spatial frequency by the squared modulus of its transform (the contrast it leaves of that frequency), and overall by the sum of its squared pixels (the inverse of the area of noise under a star). If the PSFs given to coadd have unit sum and some exposure reaches each frequency, the PSF returned by coadd leaves, at every frequency, exactly the mean contrast of the exposures weighted by zp^2/var^2, and its summed squares are the same weighted mean: between the sharpest and the most blurred exposure, and whatever the window size that shifts it. Difference images are the other way round: with beta=False and shift=False, and PSFs whose transforms are not cut off by the guard of the division, the PSF P returned by subtract leaves at every frequency exactly the weighted harmonic mean of the contrasts of the two exposures, where the weights are the noise variances (that of the reference times the squared flux ratio), so P looks like the PSF of the noisier exposure. It is between the two at every frequency, its summed squares are at most the weighted mean of those of the two PSFs, and if both exposures have noise equal to it exactly if they leave the same contrast at every frequency. An exposure that leaves all and one that leaves half of a frequency, with equal noise, give a difference image that leaves 2/3.", "quantifier": "all numbers and sizes of exposures, all pixels, all PSFs (unit sum for coadd), zero points, window sizes and noise levels, all admissible numbers of workers; for subtract all flux ratios other than zero and noise levels not both zero", "why_tests_cant": "identities between the PSFs of all possible exposures and the returned PSF at each frequency; a test sees the PSF of a few exposures only and has nothing to compare it with", "anchors": ["properimage/operations.py:coadd", "properimage/operations.py:subtract", "properimage/single_image.py:SingleImage.psf_hat_sqnorm"]}
{"id": "C196", "title": "The difference of two coadds", "statement": "Coadd the exposures of one season, and those of another, and give both coadds to subtract (beta=False, shift=False) with the PSF images that coadd returned, the noise of a coadd (C105) and zero points in the ratio of the flux scales of the coadds. Look at D as a function of the pixels of all exposures, with independent noise of their own level in each pixel. Then the noise of D is white with variance one. A sky that all exposures show, each through its own PSF and in proportion to its zero point, leaves nothing in D, and what changed in the sky between the seasons appears in D as seen through the PSF image P that subtract returns, times the root of N/(1/A0 + 1/B0) for N pixels, with A0 and B0 the values of A and B (below) at frequency zero. And the sum of D against P, centred on the star, has for a star that only the exposures of the second season show, the largest ratio of response to noise that any weighted sum of all pixels of all exposures can have that does not respond to stars that do not change: squared, it is the sum over the frequencies of 1/(1/A + 1/B), with A and B the sums of zp^2 |psf_hat|^2/var^2 of the exposures of each season. So nothing is lost by coadding each season first. The value is the same whichever season is taken for the reference, less than what either season would give beside a noiseless other one, never smaller with further exposures in either season, and with m and n equal exposures it is mn/(m+n) times that of a single exposure, so at most a quarter of all of them together.", "quantifier": "all numbers of exposures in each season, all shapes, pixels, PSFs, zero points, noise levels, admissible numbers of workers and window sizes, all positions of the star, and all weighted sums of the pixels that do not respond to unchanging stars; every frequency is reached by some exposure of each season, and the PSF images of the coadds are centred and not cut off by the guard of the division", "why_tests_cant": "optimality against all weighted sums of all pixels of arbitrarily many exposures, through three calls of the library; tests compare a few images and cannot try all other estimators", "anchors": ["properimage/operations.py:coadd", "properimage/operations.py:subtract", "properimage/single_image.py:SingleImage.s_hat_comp"]}
{"id": "C197", "title": "Stars at the edge of the frame", "statement": "subtract and coadd treat the frame as periodic, but the light of a star that falls outside an exposure is lost and does not come back on the other side. Let both exposures show the same sky, each through its own PSF stamp and cut off at the edges of the frame, the new one brighter by the ratio of the zero points, and besides any other light (of stars beyond the edge, say). Then D, with beta=False and shift=False, is changed exactly as the other light less the missing light, brought back in at the opposite edges, would change it. So the squares of the changes add up to at most the squares of that light in units of the noise of its exposure. For one star the missing light has the summed squares of the part of its PSF stamp that lies outside. Stars whose stamps lie in the frame in both exposures leave nothing in D; and if the reference misses nothing, D is free of the sky exactly if the new exposure misses nothing either. An unchanged star in the first pixel of a row, seen by a sharp reference and by a new exposure with PSF (1/4, 1/2, 1/4), therefore does leave something. A coadd shows the sky through the PSF that coadd returns, up to errors whose squares add up to at most the squares of the missing less the other light in units of the noise, divided by the number of pixels.", "quantifier": "all skies, all other light, all exposures of one shape with non-zero noise and PSF stamps that fit into the frame and are not cut off by the guard of the division, all zero points; for subtract PSF centres that lie whole pixels apart, on whole pixels along sides of even length; for coadd all numbers of exposures, PSFs with whole-pixel centres and process counts, where no frequency lacks power", "why_tests_cant": "an identity and a bound for all skies and all light outside the frame; tests use stars well inside the frame or none at all", "anchors": ["properimage/operations.py:subtract", "properimage/operations.py:coadd", "properimage/single_image.py:SingleImage.psf_hat_sqnorm"]}
{"id": "C198", "title": "Difference images with a common reference share its noise", "statement": "Each difference image of subtract (beta=False, shift=False) has white noise of variance one, but the difference images of several new exposures against one reference are not independent: they share the errors of the reference's pixels. The covariance of a pixel of one and a pixel of the other depends on their displacement only, and is the transform of what the two calls turn the reference's noise into. If all exposures have one PSF, the same pixels of two difference images have covariance b b' r^2 / (sqrt(s^2 + b^2 r^2) sqrt(s'^2 + b'^2 r^2)), where r is the noise of the reference, s and s' are those of the new exposures and b and b' the ratios of the zero points, and different pixels have none; one half for equal noise and zero points. If the new exposures have one PSF (any, also other than the reference's), noise and ratio of zero points, a weighted sum of their difference images with weights c has variance (1 - q) sum(c^2) + q (sum c)^2 in every pixel, where q is the reference's share of the noise, averaged over the frequencies, strictly between zero and one. So the mean of n difference images has variance q + (1 - q)/n, and never falls to q however many exposures there are; no other weights adding up to one do as well. The noise of a mean of two or more is white exactly if the transforms of the PSFs of the reference and of the new exposures have a constant ratio of absolute values. And in comparisons of difference images with one another (weights adding up to zero) the noise of the reference drops out.", "quantifier": "all numbers of new exposures, references and new exposures of one shape, PSF stamps, noise levels, zero points, weights and pixels; noise uncorrelated between pixels and exposures with the standard deviations that subtract uses", "why_tests_cant": "a statement on second moments over all calls with one reference; tests make one difference image, and would need a large sample of skies to see a covariance", "anchors": ["properimage/operations.py:subtract", "properimage/single_image.py:SingleImage.var", "properimage/single_image.py:SingleImage.get_variable_psf"]}
{"id": "C199", "title": "What holds of the difference image to the last bit", "statement": "Three things that subtract (beta=False, shift=False) does hold in floating point and not only up to rounding errors, because the code does the same operations in the same order on both images. (1) Two images with the same pixels, PSF and non-zero zero point, whatever their noise, give a D that is exactly zero in every pixel. (2) Exchanging two images with equal zero points changes the sign of D and no digit of it. (3) Giving the pixels and the noise of both images in units half as large (or, again and again, in units smaller by any power of two) gives the same D, digit by digit. This is so in every arithmetic in which x - x is zero, y - x is -(x - y), sums do not depend on the order of two terms, 1*x and x*1 are x, x/x is 1, 0/x is 0, (-x)/y is -(x/y), doubled operands give results doubled as they should be, and transforms of zero, negated and doubled arrays are zero, negated and doubled; in particular whenever every operation is done exactly and then rounded by a function that is odd, leaves 1 and its own values alone and commutes with doubling, like rounding to any number of binary digits, to the nearest with halves to even, toward zero, or in any other way that keeps order and whole significands and treats both signs alike, without overflow and underflow. There the norm that D is divided by is never zero, so (1) needs no more than noise that is not zero. In exact arithmetic the same operations give the D of the rest of the model.", "quantifier": "all images, PSFs, noise levels and zero points as stated, all arithmetics with the stated laws, all such rounding functions, all numbers of binary digits", "why_tests_cant": "a statement on every rounding function; a test sees one machine, one library and one precision, and compares with a tolerance that hides the difference between zero and almost zero", "anchors": ["properimage/operations.py:subtract"]}
{"id": "C200", "title": "What holds of a coadd to the last bit", "statement": "What coadd returns is made of sums whose rounding depends on how many processes share the work and on the order of the images. The following holds in floating point all the same, digit by digit, for R and for P_r. (1) As many processes as there are images (at most 2**25) get one image each, and give what one process gives. (2) Two images may be exchanged, and may be added up by one process or by two whose results come in either order. (3) Doubling the zero points of all images, (4) doubling all PSFs at the same centres, and (5) giving the pixels and the noise of all images in units half as large change nothing, with one process or with any division of the images into chunks: only the ratios of the zero points matter, the normalisation of the PSFs drops out, and R is in units of the noise. This is so in every arithmetic in which sums do not depend on the order of two terms, adding zero changes nothing, and doubled operands give results doubled or halved as they should be; in particular when every operation is done exactly and then rounded as in C199, such as to the nearest binary64 number, the rounding of C164. The first two do not extend to three images and fewer workers: in binary64 the terms 2**53, 1, 1 have the sum 2**53 in this order and 2**53 + 2 in the opposite one. In exact arithmetic the same operations give the R and the P_r of the rest of the model, for any number of processes and any division of the images.", "quantifier": "all lists of images of one shape with a single PSF each, all divisions into chunks, all arithmetics with the stated laws, all rounding functions as in C199", "why_tests_cant": "a statement on every rounding function and every division of the work; a test sees one machine and one number of processes, and compares with a tolerance that hides which digits agree", "anchors": ["properimage/operations.py:coadd", "properimage/operations.py:process_chunk_joblib", "properimage/single_image.py:SingleImage.s_hat_comp", "properimage/single_image.py:SingleImage.psf_hat_sqnorm"]}
{"id": "C201", "title": "What holds of P and the score image to the last bit", "statement": "In floating point, digit by digit and not only up to rounding errors, subtract (beta=False, shift=False) does the following. (1) Two images with the same pixels, PSF and non-zero zero point, whatever their masks and their noise (as long as it is not zero), have the score S_corr exactly zero in every pixel in which it is not 0/0. (2) Exchanging two images with equal zero points changes no digit of P, and only the sign of S_corr: the kernels of the two variance maps change places and the maps are added up in the other order. (3) Giving the pixels and the noise of both images in units half as large changes no digit of P. This is so in every arithmetic with the laws of C199 in which besides x*y is y*x, x*(-y) is -(x*y), x*0 is 0, halving a divisor doubles the quotient, and shifts and real parts of negated and zero arrays are negated and zero; in particular when every operation is done exactly and then rounded as in C199, such as to the nearest binary64 number, and wherever the centre of P is taken to be. In exact arithmetic the same operations give the P and the S_corr of the rest of the model.", "quantifier": "all images, PSFs, noise levels, masks and zero points as stated, all arithmetics with the stated laws, all rounding functions as in C199", "why_tests_cant": "a statement on every rounding function; a test sees one machine, one library and one precision, and compares with a tolerance that hides which digits agree", "anchors": ["properimage/operations.py:subtract"]}
{"id": "C202", "title": "What holds of a coadd of images with a variable PSF to the last bit", "statement": "For images whose PSF is a sum of basis PSFs with coefficient fields, the following holds of coadd in floating point, digit by digit. (1) As many processes as images give what one process gives, and two images may be exchanged. (2) Doubling the zero points of all images, giving pixels and noise of all images in units half as large, and doubling the coefficient fields of all images change no digit of R and of P_r. (3) Doubling the basis PSFs of all images, at the same centres, leaves P_r as it is but makes R half as large, digit by digit, unlike for images with a single PSF (C200), where it changes nothing: the normalisation image by which the pixels are divided takes the factor out of the matched filter but not out of the PSF power. (2) and (3) hold with one process and with any division of the images into chunks. All this is so in every arithmetic with the laws of C200 in which a convolution with one array doubled is doubled; in particular when every operation is done exactly and then rounded as in C199. In exact arithmetic the same operations give the R and the P_r of the rest of the model, for any number of processes and any division of the images.", "quantifier": "all lists of images of one shape with any number of fields and basis PSFs, all divisions into chunks, all arithmetics with the stated laws, all rounding functions as in C199", "why_tests_cant": "a statement on every rounding function and every division of the work; a test sees one machine and one number of processes, and compares with a tolerance that hides which digits agree", "anchors": ["properimage/operations.py:coadd", "properimage/operations.py:process_chunk_joblib", "properimage/single_image.py:SingleImage.s_hat_comp", "properimage/single_image.py:SingleImage.normal_image", "properimage/single_image.py:SingleImage.psf_hat_sqnorm"]}
